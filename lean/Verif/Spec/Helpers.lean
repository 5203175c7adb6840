/-!
# Specification: the helpers of the kernel

Name and parameters of each helper, in the order of their numbers, as the comments of the kernel's header `linux/bpf.h` give them
(`/usr/include/linux/bpf.h`; not part of the repository).  The parameter `...` stands for any number of further ones.
-/
namespace Verif.Bpf

/-- The helpers: name and parameters. -/
def protos : List (String × List String) := [
  ("unspec", []),
  ("map_lookup_elem", ["struct bpf_map *map", "const void *key"]),
  ("map_update_elem", ["struct bpf_map *map", "const void *key", "const void *value", "u64 flags"]),
  ("map_delete_elem", ["struct bpf_map *map", "const void *key"]),
  ("probe_read", ["void *dst", "u32 size", "const void *unsafe_ptr"]),
  ("ktime_get_ns", []),
  ("trace_printk", ["const char *fmt", "u32 fmt_size", "..."]),
  ("get_prandom_u32", []),
  ("get_smp_processor_id", []),
  ("skb_store_bytes", ["struct sk_buff *skb", "u32 offset", "const void *from", "u32 len", "u64 flags"]),
  ("l3_csum_replace", ["struct sk_buff *skb", "u32 offset", "u64 from", "u64 to", "u64 size"]),
  ("l4_csum_replace", ["struct sk_buff *skb", "u32 offset", "u64 from", "u64 to", "u64 flags"]),
  ("tail_call", ["void *ctx", "struct bpf_map *prog_array_map", "u32 index"]),
  ("clone_redirect", ["struct sk_buff *skb", "u32 ifindex", "u64 flags"]),
  ("get_current_pid_tgid", []),
  ("get_current_uid_gid", []),
  ("get_current_comm", ["void *buf", "u32 size_of_buf"]),
  ("get_cgroup_classid", ["struct sk_buff *skb"]),
  ("skb_vlan_push", ["struct sk_buff *skb", "__be16 vlan_proto", "u16 vlan_tci"]),
  ("skb_vlan_pop", ["struct sk_buff *skb"]),
  ("skb_get_tunnel_key", ["struct sk_buff *skb", "struct bpf_tunnel_key *key", "u32 size", "u64 flags"]),
  ("skb_set_tunnel_key", ["struct sk_buff *skb", "struct bpf_tunnel_key *key", "u32 size", "u64 flags"]),
  ("perf_event_read", ["struct bpf_map *map", "u64 flags"]),
  ("redirect", ["u32 ifindex", "u64 flags"]),
  ("get_route_realm", ["struct sk_buff *skb"]),
  ("perf_event_output", ["void *ctx", "struct bpf_map *map", "u64 flags", "void *data", "u64 size"]),
  ("skb_load_bytes", ["const void *skb", "u32 offset", "void *to", "u32 len"]),
  ("get_stackid", ["void *ctx", "struct bpf_map *map", "u64 flags"]),
  ("csum_diff", ["__be32 *from", "u32 from_size", "__be32 *to", "u32 to_size", "__wsum seed"]),
  ("skb_get_tunnel_opt", ["struct sk_buff *skb", "void *opt", "u32 size"]),
  ("skb_set_tunnel_opt", ["struct sk_buff *skb", "void *opt", "u32 size"]),
  ("skb_change_proto", ["struct sk_buff *skb", "__be16 proto", "u64 flags"]),
  ("skb_change_type", ["struct sk_buff *skb", "u32 type"]),
  ("skb_under_cgroup", ["struct sk_buff *skb", "struct bpf_map *map", "u32 index"]),
  ("get_hash_recalc", ["struct sk_buff *skb"]),
  ("get_current_task", []),
  ("probe_write_user", ["void *dst", "const void *src", "u32 len"]),
  ("current_task_under_cgroup", ["struct bpf_map *map", "u32 index"]),
  ("skb_change_tail", ["struct sk_buff *skb", "u32 len", "u64 flags"]),
  ("skb_pull_data", ["struct sk_buff *skb", "u32 len"]),
  ("csum_update", ["struct sk_buff *skb", "__wsum csum"]),
  ("set_hash_invalid", ["struct sk_buff *skb"]),
  ("get_numa_node_id", []),
  ("skb_change_head", ["struct sk_buff *skb", "u32 len", "u64 flags"]),
  ("xdp_adjust_head", ["struct xdp_buff *xdp_md", "int delta"]),
  ("probe_read_str", ["void *dst", "u32 size", "const void *unsafe_ptr"]),
  ("get_socket_cookie", ["struct sock *sk"]),
  ("get_socket_uid", ["struct sk_buff *skb"]),
  ("set_hash", ["struct sk_buff *skb", "u32 hash"]),
  ("setsockopt", ["void *bpf_socket", "int level", "int optname", "void *optval", "int optlen"]),
  ("skb_adjust_room", ["struct sk_buff *skb", "s32 len_diff", "u32 mode", "u64 flags"]),
  ("redirect_map", ["struct bpf_map *map", "u64 key", "u64 flags"]),
  ("sk_redirect_map", ["struct sk_buff *skb", "struct bpf_map *map", "u32 key", "u64 flags"]),
  ("sock_map_update", ["struct bpf_sock_ops *skops", "struct bpf_map *map", "void *key", "u64 flags"]),
  ("xdp_adjust_meta", ["struct xdp_buff *xdp_md", "int delta"]),
  ("perf_event_read_value", ["struct bpf_map *map", "u64 flags", "struct bpf_perf_event_value *buf", "u32 buf_size"]),
  ("perf_prog_read_value", ["struct bpf_perf_event_data *ctx", "struct bpf_perf_event_value *buf", "u32 buf_size"]),
  ("getsockopt", ["void *bpf_socket", "int level", "int optname", "void *optval", "int optlen"]),
  ("override_return", ["struct pt_regs *regs", "u64 rc"]),
  ("sock_ops_cb_flags_set", ["struct bpf_sock_ops *bpf_sock", "int argval"]),
  ("msg_redirect_map", ["struct sk_msg_buff *msg", "struct bpf_map *map", "u32 key", "u64 flags"]),
  ("msg_apply_bytes", ["struct sk_msg_buff *msg", "u32 bytes"]),
  ("msg_cork_bytes", ["struct sk_msg_buff *msg", "u32 bytes"]),
  ("msg_pull_data", ["struct sk_msg_buff *msg", "u32 start", "u32 end", "u64 flags"]),
  ("bind", ["struct bpf_sock_addr *ctx", "struct sockaddr *addr", "int addr_len"]),
  ("xdp_adjust_tail", ["struct xdp_buff *xdp_md", "int delta"]),
  ("skb_get_xfrm_state", ["struct sk_buff *skb", "u32 index", "struct bpf_xfrm_state *xfrm_state", "u32 size", "u64 flags"]),
  ("get_stack", ["void *ctx", "void *buf", "u32 size", "u64 flags"]),
  ("skb_load_bytes_relative", ["const void *skb", "u32 offset", "void *to", "u32 len", "u32 start_header"]),
  ("fib_lookup", ["void *ctx", "struct bpf_fib_lookup *params", "int plen", "u32 flags"]),
  ("sock_hash_update", ["struct bpf_sock_ops *skops", "struct bpf_map *map", "void *key", "u64 flags"]),
  ("msg_redirect_hash", ["struct sk_msg_buff *msg", "struct bpf_map *map", "void *key", "u64 flags"]),
  ("sk_redirect_hash", ["struct sk_buff *skb", "struct bpf_map *map", "void *key", "u64 flags"]),
  ("lwt_push_encap", ["struct sk_buff *skb", "u32 type", "void *hdr", "u32 len"]),
  ("lwt_seg6_store_bytes", ["struct sk_buff *skb", "u32 offset", "const void *from", "u32 len"]),
  ("lwt_seg6_adjust_srh", ["struct sk_buff *skb", "u32 offset", "s32 delta"]),
  ("lwt_seg6_action", ["struct sk_buff *skb", "u32 action", "void *param", "u32 param_len"]),
  ("rc_repeat", ["void *ctx"]),
  ("rc_keydown", ["void *ctx", "u32 protocol", "u64 scancode", "u32 toggle"]),
  ("skb_cgroup_id", ["struct sk_buff *skb"]),
  ("get_current_cgroup_id", []),
  ("get_local_storage", ["void *map", "u64 flags"]),
  ("sk_select_reuseport", ["struct sk_reuseport_md *reuse", "struct bpf_map *map", "void *key", "u64 flags"]),
  ("skb_ancestor_cgroup_id", ["struct sk_buff *skb", "int ancestor_level"]),
  ("sk_lookup_tcp", ["void *ctx", "struct bpf_sock_tuple *tuple", "u32 tuple_size", "u64 netns", "u64 flags"]),
  ("sk_lookup_udp", ["void *ctx", "struct bpf_sock_tuple *tuple", "u32 tuple_size", "u64 netns", "u64 flags"]),
  ("sk_release", ["void *sock"]),
  ("map_push_elem", ["struct bpf_map *map", "const void *value", "u64 flags"]),
  ("map_pop_elem", ["struct bpf_map *map", "void *value"]),
  ("map_peek_elem", ["struct bpf_map *map", "void *value"]),
  ("msg_push_data", ["struct sk_msg_buff *msg", "u32 start", "u32 len", "u64 flags"]),
  ("msg_pop_data", ["struct sk_msg_buff *msg", "u32 start", "u32 len", "u64 flags"]),
  ("rc_pointer_rel", ["void *ctx", "s32 rel_x", "s32 rel_y"]),
  ("spin_lock", ["struct bpf_spin_lock *lock"]),
  ("spin_unlock", ["struct bpf_spin_lock *lock"]),
  ("sk_fullsock", ["struct bpf_sock *sk"]),
  ("tcp_sock", ["struct bpf_sock *sk"]),
  ("skb_ecn_set_ce", ["struct sk_buff *skb"]),
  ("get_listener_sock", ["struct bpf_sock *sk"]),
  ("skc_lookup_tcp", ["void *ctx", "struct bpf_sock_tuple *tuple", "u32 tuple_size", "u64 netns", "u64 flags"]),
  ("tcp_check_syncookie", ["void *sk", "void *iph", "u32 iph_len", "struct tcphdr *th", "u32 th_len"]),
  ("sysctl_get_name", ["struct bpf_sysctl *ctx", "char *buf", "size_t buf_len", "u64 flags"]),
  ("sysctl_get_current_value", ["struct bpf_sysctl *ctx", "char *buf", "size_t buf_len"]),
  ("sysctl_get_new_value", ["struct bpf_sysctl *ctx", "char *buf", "size_t buf_len"]),
  ("sysctl_set_new_value", ["struct bpf_sysctl *ctx", "const char *buf", "size_t buf_len"]),
  ("strtol", ["const char *buf", "size_t buf_len", "u64 flags", "long *res"]),
  ("strtoul", ["const char *buf", "size_t buf_len", "u64 flags", "unsigned long *res"]),
  ("sk_storage_get", ["struct bpf_map *map", "void *sk", "void *value", "u64 flags"]),
  ("sk_storage_delete", ["struct bpf_map *map", "void *sk"]),
  ("send_signal", ["u32 sig"]),
  ("tcp_gen_syncookie", ["void *sk", "void *iph", "u32 iph_len", "struct tcphdr *th", "u32 th_len"]),
  ("skb_output", ["void *ctx", "struct bpf_map *map", "u64 flags", "void *data", "u64 size"]),
  ("probe_read_user", ["void *dst", "u32 size", "const void *unsafe_ptr"]),
  ("probe_read_kernel", ["void *dst", "u32 size", "const void *unsafe_ptr"]),
  ("probe_read_user_str", ["void *dst", "u32 size", "const void *unsafe_ptr"]),
  ("probe_read_kernel_str", ["void *dst", "u32 size", "const void *unsafe_ptr"]),
  ("tcp_send_ack", ["void *tp", "u32 rcv_nxt"]),
  ("send_signal_thread", ["u32 sig"]),
  ("jiffies64", []),
  ("read_branch_records", ["struct bpf_perf_event_data *ctx", "void *buf", "u32 size", "u64 flags"]),
  ("get_ns_current_pid_tgid", ["u64 dev", "u64 ino", "struct bpf_pidns_info *nsdata", "u32 size"]),
  ("xdp_output", ["void *ctx", "struct bpf_map *map", "u64 flags", "void *data", "u64 size"]),
  ("get_netns_cookie", ["void *ctx"]),
  ("get_current_ancestor_cgroup_id", ["int ancestor_level"]),
  ("sk_assign", ["struct bpf_sk_lookup *ctx", "struct bpf_sock *sk", "u64 flags"]),
  ("ktime_get_boot_ns", []),
  ("seq_printf", ["struct seq_file *m", "const char *fmt", "u32 fmt_size", "const void *data", "u32 data_len"]),
  ("seq_write", ["struct seq_file *m", "const void *data", "u32 len"]),
  ("sk_cgroup_id", ["void *sk"]),
  ("sk_ancestor_cgroup_id", ["void *sk", "int ancestor_level"]),
  ("ringbuf_output", ["void *ringbuf", "void *data", "u64 size", "u64 flags"]),
  ("ringbuf_reserve", ["void *ringbuf", "u64 size", "u64 flags"]),
  ("ringbuf_submit", ["void *data", "u64 flags"]),
  ("ringbuf_discard", ["void *data", "u64 flags"]),
  ("ringbuf_query", ["void *ringbuf", "u64 flags"]),
  ("csum_level", ["struct sk_buff *skb", "u64 level"]),
  ("skc_to_tcp6_sock", ["void *sk"]),
  ("skc_to_tcp_sock", ["void *sk"]),
  ("skc_to_tcp_timewait_sock", ["void *sk"]),
  ("skc_to_tcp_request_sock", ["void *sk"]),
  ("skc_to_udp6_sock", ["void *sk"]),
  ("get_task_stack", ["struct task_struct *task", "void *buf", "u32 size", "u64 flags"]),
  ("load_hdr_opt", ["struct bpf_sock_ops *skops", "void *searchby_res", "u32 len", "u64 flags"]),
  ("store_hdr_opt", ["struct bpf_sock_ops *skops", "const void *from", "u32 len", "u64 flags"]),
  ("reserve_hdr_opt", ["struct bpf_sock_ops *skops", "u32 len", "u64 flags"]),
  ("inode_storage_get", ["struct bpf_map *map", "void *inode", "void *value", "u64 flags"]),
  ("inode_storage_delete", ["struct bpf_map *map", "void *inode"]),
  ("d_path", ["struct path *path", "char *buf", "u32 sz"]),
  ("copy_from_user", ["void *dst", "u32 size", "const void *user_ptr"]),
  ("snprintf_btf", ["char *str", "u32 str_size", "struct btf_ptr *ptr", "u32 btf_ptr_size", "u64 flags"]),
  ("seq_printf_btf", ["struct seq_file *m", "struct btf_ptr *ptr", "u32 ptr_size", "u64 flags"]),
  ("skb_cgroup_classid", ["struct sk_buff *skb"]),
  ("redirect_neigh", ["u32 ifindex", "struct bpf_redir_neigh *params", "int plen", "u64 flags"]),
  ("per_cpu_ptr", ["const void *percpu_ptr", "u32 cpu"]),
  ("this_cpu_ptr", ["const void *percpu_ptr"]),
  ("redirect_peer", ["u32 ifindex", "u64 flags"]),
  ("task_storage_get", ["struct bpf_map *map", "struct task_struct *task", "void *value", "u64 flags"]),
  ("task_storage_delete", ["struct bpf_map *map", "struct task_struct *task"]),
  ("get_current_task_btf", []),
  ("bprm_opts_set", ["struct linux_binprm *bprm", "u64 flags"]),
  ("ktime_get_coarse_ns", []),
  ("ima_inode_hash", ["struct inode *inode", "void *dst", "u32 size"]),
  ("sock_from_file", ["struct file *file"]),
  ("check_mtu", ["void *ctx", "u32 ifindex", "u32 *mtu_len", "s32 len_diff", "u64 flags"]),
  ("for_each_map_elem", ["struct bpf_map *map", "void *callback_fn", "void *callback_ctx", "u64 flags"]),
  ("snprintf", ["char *str", "u32 str_size", "const char *fmt", "u64 *data", "u32 data_len"]),
  ("sys_bpf", ["u32 cmd", "void *attr", "u32 attr_size"]),
  ("btf_find_by_name_kind", ["char *name", "int name_sz", "u32 kind", "int flags"]),
  ("sys_close", ["u32 fd"]),
  ("timer_init", ["struct bpf_timer *timer", "struct bpf_map *map", "u64 flags"]),
  ("timer_set_callback", ["struct bpf_timer *timer", "void *callback_fn"]),
  ("timer_start", ["struct bpf_timer *timer", "u64 nsecs", "u64 flags"]),
  ("timer_cancel", ["struct bpf_timer *timer"]),
  ("get_func_ip", ["void *ctx"]),
  ("get_attach_cookie", ["void *ctx"]),
  ("task_pt_regs", ["struct task_struct *task"]),
  ("get_branch_snapshot", ["void *entries", "u32 size", "u64 flags"]),
  ("trace_vprintk", ["const char *fmt", "u32 fmt_size", "const void *data", "u32 data_len"]),
  ("skc_to_unix_sock", ["void *sk"]),
  ("kallsyms_lookup_name", ["const char *name", "int name_sz", "int flags", "u64 *res"]),
  ("find_vma", ["struct task_struct *task", "u64 addr", "void *callback_fn", "void *callback_ctx", "u64 flags"]),
  ("loop", ["u32 nr_loops", "void *callback_fn", "void *callback_ctx", "u64 flags"]),
  ("strncmp", ["const char *s1", "u32 s1_sz", "const char *s2"]),
  ("get_func_arg", ["void *ctx", "u32 n", "u64 *value"]),
  ("get_func_ret", ["void *ctx", "u64 *value"]),
  ("get_func_arg_cnt", ["void *ctx"]),
  ("get_retval", []),
  ("set_retval", ["int retval"]),
  ("xdp_get_buff_len", ["struct xdp_buff *xdp_md"]),
  ("xdp_load_bytes", ["struct xdp_buff *xdp_md", "u32 offset", "void *buf", "u32 len"]),
  ("xdp_store_bytes", ["struct xdp_buff *xdp_md", "u32 offset", "void *buf", "u32 len"]),
  ("copy_from_user_task", ["void *dst", "u32 size", "const void *user_ptr", "struct task_struct *tsk", "u64 flags"]),
  ("skb_set_tstamp", ["struct sk_buff *skb", "u64 tstamp", "u32 tstamp_type"]),
  ("ima_file_hash", ["struct file *file", "void *dst", "u32 size"]),
  ("kptr_xchg", ["void *map_value", "void *ptr"]),
  ("map_lookup_percpu_elem", ["struct bpf_map *map", "const void *key", "u32 cpu"]),
  ("skc_to_mptcp_sock", ["void *sk"]),
  ("dynptr_from_mem", ["void *data", "u32 size", "u64 flags", "struct bpf_dynptr *ptr"]),
  ("ringbuf_reserve_dynptr", ["void *ringbuf", "u32 size", "u64 flags", "struct bpf_dynptr *ptr"]),
  ("ringbuf_submit_dynptr", ["struct bpf_dynptr *ptr", "u64 flags"]),
  ("ringbuf_discard_dynptr", ["struct bpf_dynptr *ptr", "u64 flags"]),
  ("dynptr_read", ["void *dst", "u32 len", "const struct bpf_dynptr *src", "u32 offset", "u64 flags"]),
  ("dynptr_write", ["const struct bpf_dynptr *dst", "u32 offset", "void *src", "u32 len", "u64 flags"]),
  ("dynptr_data", ["const struct bpf_dynptr *ptr", "u32 offset", "u32 len"]),
  ("tcp_raw_gen_syncookie_ipv4", ["struct iphdr *iph", "struct tcphdr *th", "u32 th_len"]),
  ("tcp_raw_gen_syncookie_ipv6", ["struct ipv6hdr *iph", "struct tcphdr *th", "u32 th_len"]),
  ("tcp_raw_check_syncookie_ipv4", ["struct iphdr *iph", "struct tcphdr *th"]),
  ("tcp_raw_check_syncookie_ipv6", ["struct ipv6hdr *iph", "struct tcphdr *th"]),
  ("ktime_get_tai_ns", []),
  ("user_ringbuf_drain", ["struct bpf_map *map", "void *callback_fn", "void *ctx", "u64 flags"]),
  ("cgrp_storage_get", ["struct bpf_map *map", "struct cgroup *cgroup", "void *value", "u64 flags"]),
  ("cgrp_storage_delete", ["struct bpf_map *map", "struct cgroup *cgroup"])]

/-- Helpers for which the verifier adds an argument of its own behind those of the program: the storage helpers (an allocation flag) and
`timer_set_callback` (the program). -/
def hidden : List Nat := [107, 145, 156, 170, 210]

end Verif.Bpf

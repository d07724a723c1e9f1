NOTES = {
 'C09': ('proved', 'The expectation that a full key resolves is refuted by C09_full_key_counterexample.'),
 'C10': ('proved', 'The expectation that over-long texts are rejected is refuted by C10_overlong_accepted_counterexample. Shorter texts are C07.'),
 'C24': ('proved', 'The unconditional statement (definition C24) is refuted by C24_false_counterexample; the exact condition is proved for every content and read schedule.'),
 'C25': ('proved', 'The statement without the bound on reads is refuted by C25_counterexample.'),
 'C106': ('proved', 'C106_counterexample: the exception is needed, since contents can be what a decoder takes for an item.'),
 'C31': ('proved', 'C31_counterexample: the restriction to objects stored by put_fs_item is needed.'),
 'C34': ('proved', 'C34_order_counterexample: the condition on the listing order is needed.'),
 'C49': ('proved', 'Exact characterisation; the code does not report deletions but panics.'),
 'C50': ('proved', 'Exact characterisation, including the cases in which the code is wrong (C50_needs_cwd, panic on deletion, directory replacing a file).'),
 'C51': ('proved', 'C51_order_counterexample: the condition on the cache is needed.'),
 'C54': ('proved', 'That the counts are right is false of the code; the exact relation is proved.'),
 'C57': ('proved', 'C57_stale_counterexample: the condition on triples is needed.'),
 'C58': ('proved', 'The expectation that the user\'s first parent is followed is refuted by C58_order_counterexample.'),
 'C61': ('proved', 'C61_overlooked_counterexample: a file replaced by a directory goes unnoticed.'),
 'C73': ('proved', 'C73_counterexample: with reads that fill the buffer an insertion of one byte renews every chunk; the property says so.'),
 'C72': ('proved', 'C72_counterexample: compare --stat has to be excepted.'),
 'C65': ('proved', 'C65_no_rollback_counterexample: file effects of a failing command stay.'),
 'C62': ('proved', 'C62_missing_counterexample: checkout fails if a stored directory is missing.'),
 'C95': ('proved', 'The expectation that status is right once the files are left alone is refuted by C95_counterexample; C95_forever is the general statement.'),
 'C96': ('proved', 'C96_outside_counterexample: with a link where the tree has an entry, checkout changes files outside the directory; C96_checkout says when it does not.'),
 'C98': ('proved', 'For status and checkout-head the expectation is refuted by C98_head_counterexample and C98_status_lost; what they do instead is proved.'),
 'C102': ('proved', 'That a failing command leaves the database as it was is refuted by C102_atomic_counterexample for a transaction that could not be begun; what stays and what does not is proved.'),
}

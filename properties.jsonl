{"id": "C01", "title": "Green trees are lossless", "statement": "Displaying a green node yields exactly the concatenation, in order, of the texts of the tokens below it, and text_len() is exactly the UTF-8 byte length of that string, for every green node obtainable from GreenToken::new, GreenNode::new and the edit methods.", "quantifier": "every finite green tree, of any arity and depth, with any token texts (including empty tokens and multi-byte characters)", "why_tests_cant": "the space of trees is infinite; a wrong cached length only shows at particular shapes", "anchors": ["src/green/node.rs:GreenNode::new", "src/green/token.rs:GreenToken::new", "src/green/node.rs:Display for GreenNodeData", "src/green/node.rs:text_len", "src/green/token.rs:text_len"]}
{"id": "C02", "title": "Green edits are list edits", "statement": "replace_child(i,x), insert_child(i,x), remove_child(i) and splice_children(r,xs) return a node of the same kind whose children are the old children with exactly that list edit applied; lengths and child offsets of the result are exact; out-of-range insert/remove/splice panics, out-of-range replace_child returns an equal copy.", "quantifier": "all green nodes, all indices and ranges, all replacement lists", "why_tests_cant": "boundary indices and cached offsets for arbitrary child lists cannot be enumerated", "anchors": ["src/green/node.rs:replace_child", "src/green/node.rs:insert_child", "src/green/node.rs:remove_child", "src/green/node.rs:splice_children"]}
{"id": "C03", "title": "Green equality is structural", "statement": "Two green nodes (tokens) compare equal iff they have the same kind and, recursively, equal children (same text) - independent of sharing and addresses; equal values feed identical data to a Hasher.", "quantifier": "all pairs of green trees", "why_tests_cant": "pairs of trees are infinite and deep equality must ignore allocation identity in every sharing pattern", "anchors": ["src/green/node.rs:PartialEq for GreenNodeData", "src/green/token.rs:PartialEq for GreenTokenData", "src/arc.rs:PartialEq for ThinArc"]}
{"id": "C04", "title": "u32 text arithmetic is exact below 2^32", "statement": "If the total text of a tree is shorter than 2^32 bytes, every length, relative offset and absolute offset the library computes with 32-bit arithmetic equals the mathematically exact value; otherwise building with overflow checks fails rather than yielding a wrong length.", "quantifier": "all trees with text below and above 2^32 bytes", "why_tests_cant": "multi-gigabyte inputs are not unit-testable", "anchors": ["src/green/node.rs:GreenNode::new", "src/cursor.rs:NodeData::offset_mut", "src/cursor.rs:NodeData::text_range"]}
{"id": "C05", "title": "Builder round trip", "statement": "Replaying the start_node/token/finish_node events of a tree into a fresh builder and calling finish() returns a green node equal to that tree; hence every tree can be built and nothing is lost, reordered or added.", "quantifier": "every finite tree", "why_tests_cant": "infinite set of trees", "anchors": ["src/green/builder.rs:GreenNodeBuilder", "src/green/builder.rs:start_node", "src/green/builder.rs:finish_node", "src/green/builder.rs:token", "src/green/builder.rs:finish"]}
{"id": "C06", "title": "Checkpoint wrapping", "statement": "start_node_at(checkpoint(),k) ... finish_node() wraps exactly the elements emitted since the checkpoint in one node of kind k, leaving every earlier element untouched; it panics exactly when the checkpoint lies beyond the current elements or before the start of the innermost open node.", "quantifier": "all builder histories and all checkpoints, fresh or stale", "why_tests_cant": "histories are unbounded", "anchors": ["src/green/builder.rs:checkpoint", "src/green/builder.rs:start_node_at", "src/green/builder.rs:Checkpoint"]}
{"id": "C07", "title": "Node cache is transparent", "statement": "For every sequence of builders that share one NodeCache, in any order of operations, and for every hash function (even a constant one), every tree produced is structurally the tree that would have been produced without any cache, and exactly the same calls panic.", "quantifier": "all op sequences over builders sharing a cache, all hash functions, all hash collisions, all caches reachable this way", "why_tests_cant": "hash collisions and cache histories cannot be sampled exhaustively", "anchors": ["src/green/node_cache.rs:NodeCache::node", "src/green/node_cache.rs:NodeCache::token", "src/green/builder.rs:with_cache"]}
{"id": "C08", "title": "Node cache deduplicates", "statement": "Within one cache, two tokens with equal kind and text are the same allocation; two nodes with at most three children, equal kind and pairwise identical cached children are the same allocation; hence equal small trees (no hash being the reserved value 0) are shared.", "quantifier": "all cache histories and hash functions", "why_tests_cant": "needs a global invariant over the whole history", "anchors": ["src/green/node_cache.rs:NodeCache::node", "src/green/node_cache.rs:NodeCache::token", "src/green/node_cache.rs:node_hash", "src/green/node_cache.rs:token_hash"]}
{"id": "C09", "title": "Builder failure points are exactly the documented ones", "statement": "A builder call panics only if: finish_node with no open node; finish with other than exactly one element or with a token; start_node_at with an invalid checkpoint. In particular no internal slice or drain ever goes out of bounds.", "quantifier": "every sequence of builder calls", "why_tests_cant": "needs an invariant over unbounded call sequences", "anchors": ["src/green/builder.rs:finish_node", "src/green/builder.rs:finish", "src/green/node_cache.rs:NodeCache::node"]}
{"id": "C10", "title": "Unclosed nodes are rejected by finish", "statement": "finish() only succeeds when every start_node/start_node_at has been matched by finish_node. (Checked against the code: FALSE - an open node is silently dropped; the exact acceptance condition is proved instead.)", "quantifier": "all builder histories", "why_tests_cant": "requires reasoning on all unbalanced histories", "anchors": ["src/green/builder.rs:finish"]}
{"id": "C11", "title": "Ranges denote the node's own text", "statement": "For every node or token handle reachable by navigation, text_range().start() is the byte length of the text preceding it in the root, text_range().len() the byte length of its own text, and slicing the root's text with that range gives the element's text.", "quantifier": "all trees, all handles reachable by any navigation sequence", "why_tests_cant": "every position in every tree", "anchors": ["src/cursor.rs:NodeData::text_range", "src/cursor.rs:NodeData::offset", "src/cursor.rs:SyntaxNode::new_child"]}
{"id": "C12", "title": "Navigation agrees with the tree", "statement": "parent, first/last child (with or without tokens, by kind), next/prev sibling (with or without tokens, by kind) and index return exactly the element at the corresponding position of the tree, and None exactly when there is no such element; the root and mutability are unchanged.", "quantifier": "all trees, all handles, all kind predicates", "why_tests_cant": "infinite trees and predicates", "anchors": ["src/cursor.rs:next_sibling", "src/cursor.rs:prev_sibling", "src/cursor.rs:next_sibling_or_token", "src/cursor.rs:prev_sibling_or_token", "src/cursor.rs:first_child", "src/cursor.rs:last_child", "src/cursor.rs:first_child_by_kind", "src/cursor.rs:next_sibling_by_kind", "src/cursor.rs:parent"]}
{"id": "C13", "title": "Child iterators enumerate the children", "statement": "children() yields exactly the child nodes in order, children_with_tokens() exactly all children in order, by_kind on a fresh iterator exactly the matching ones; advancing in place (to_next_sibling[_or_token]) yields the same element next_sibling[_or_token] would.", "quantifier": "all trees, nodes, predicates and interleavings of holding/dropping yielded handles", "why_tests_cant": "reference-count dependent fast path, unbounded children", "anchors": ["src/cursor.rs:SyntaxNodeChildren", "src/cursor.rs:SyntaxElementChildren", "src/cursor.rs:to_next_sibling", "src/cursor.rs:to_next_sibling_or_token", "src/cursor.rs:by_kind"]}
{"id": "C14", "title": "Preorder walk is exact", "statement": "preorder_with_tokens() yields precisely the Enter/Leave events of the depth-first walk of the subtree, each element entered and left exactly once, properly nested, and then ends without leaving the subtree; preorder() is the same for nodes only; descendants[_with_tokens] are the Enter events.", "quantifier": "all trees, all start nodes (root or inner), including trees with shared/interned subtrees", "why_tests_cant": "termination test uses identity equality that can confuse equal empty nodes; needs all sharing patterns", "anchors": ["src/cursor.rs:Preorder", "src/cursor.rs:PreorderWithTokens", "src/cursor.rs:descendants", "src/cursor.rs:descendants_with_tokens"]}
{"id": "C15", "title": "skip_subtree prunes exactly one subtree", "statement": "Calling skip_subtree right after Enter(n) makes the next event Leave(n) and changes nothing else of the walk, for any set of skipped nodes.", "quantifier": "all trees, all skip decisions", "why_tests_cant": "all subsets of nodes", "anchors": ["src/cursor.rs:skip_subtree", "src/cursor.rs:do_skip"]}
{"id": "C16", "title": "ancestors and siblings", "statement": "ancestors() lists exactly the chain from the node to the root; siblings(dir) / siblings_with_tokens(dir) list exactly the node and the siblings after (before) it, in order.", "quantifier": "all trees, handles and directions", "why_tests_cant": "unbounded depth and width", "anchors": ["src/cursor.rs:ancestors", "src/cursor.rs:siblings", "src/cursor.rs:siblings_with_tokens"]}
{"id": "C17", "title": "token_at_offset is exact and total", "statement": "For every node and every offset inside its closed range, token_at_offset does not panic and returns exactly the non-empty tokens whose closed range contains the offset: none iff the node's text is empty, one, or the two adjacent ones in order; outside the range it panics.", "quantifier": "all trees, nodes, offsets", "why_tests_cant": "contains an unreachable! and asserts whose unreachability needs all shapes, e.g. empty nodes at boundaries", "anchors": ["src/cursor.rs:token_at_offset"]}
{"id": "C18", "title": "covering_element returns the deepest cover", "statement": "For every range inside the node, covering_element returns an element of the subtree that contains the range and none of whose children contains it; for a non-empty range every element of the subtree containing the range is that element or one of its ancestors; otherwise it panics.", "quantifier": "all trees, nodes, ranges incl. empty ones", "why_tests_cant": "binary search boundary cases on all layouts", "anchors": ["src/cursor.rs:covering_element", "src/green/node.rs:child_at_range"]}
{"id": "C19", "title": "child_or_token_at_range", "statement": "Returns a child whose range contains the given range whenever there is one, and None otherwise (for ranges starting at or after the node); for non-empty ranges the child is unique. Holds for any conforming binary search.", "quantifier": "all nodes, ranges, child layouts incl. runs of empty children", "why_tests_cant": "binary search with a non-strict comparator on empty ranges", "anchors": ["src/green/node.rs:child_at_range", "src/cursor.rs:child_or_token_at_range"]}
{"id": "C20", "title": "first_token / last_token", "statement": "first_token() is the leftmost (last_token() the rightmost) token in the subtree. (FALSE in general: an empty node in front hides later tokens; proved for trees in which every node has a child.)", "quantifier": "all trees", "why_tests_cant": "needs all shapes with empty nodes", "anchors": ["src/cursor.rs:first_token", "src/cursor.rs:last_token"]}
{"id": "C21", "title": "next_token / prev_token walk all tokens", "statement": "next_token() (prev_token()) returns the token following (preceding) in document order and None only at the end; they are mutually inverse. (FALSE in general because of empty nodes; proved when every node has a child.)", "quantifier": "all trees, tokens", "why_tests_cant": "all shapes", "anchors": ["src/cursor.rs:next_token", "src/cursor.rs:prev_token"]}
{"id": "C22", "title": "replace_with is a point substitution", "statement": "node.replace_with(g) (token.replace_with(t)) returns a root green node equal to the old root except that this element is substituted; text equals prefix ++ new text ++ suffix; it panics iff kinds differ; the original tree is unchanged.", "quantifier": "all trees, positions and replacements", "why_tests_cant": "all paths", "anchors": ["src/cursor.rs:replace_with", "src/green/node.rs:replace_child"]}
{"id": "C23", "title": "clone_subtree and clone_for_update", "statement": "clone_subtree() is a parentless node at offset 0 with the identical tree; clone_for_update() is a mutable handle at the same position of a tree with identical content; the source stays untouched by any later mutation of the copy.", "quantifier": "all trees and positions", "why_tests_cant": "all subsequent mutation histories", "anchors": ["src/cursor.rs:clone_subtree", "src/cursor.rs:clone_for_update"]}
{"id": "C24", "title": "Identity equality and hashing", "statement": "Two handles into one tree with non-empty text are equal iff they denote the same position; equal handles hash equally; equality is an equivalence. (For empty elements equality can hold for distinct positions - proved as a counterexample.)", "quantifier": "all pairs of handles in all trees, under any sharing of green nodes", "why_tests_cant": "sharing patterns", "anchors": ["src/cursor.rs:NodeData::key", "src/cursor.rs:PartialEq for SyntaxNode"]}
{"id": "C25", "title": "Debug formatting never hits its internal assertions", "statement": "The alternate Debug dump of any node ends at indentation level 0 and never underflows, and prints one line per element in walk order; Debug of a token with any UTF-8 text never reaches unreachable!().", "quantifier": "all trees; all strings", "why_tests_cant": "all UTF-8 strings of length >= 25 and all trees", "anchors": ["src/api.rs:Debug for SyntaxNode", "src/api.rs:Debug for SyntaxToken"]}
{"id": "C26", "title": "SyntaxText is the text", "statement": "For the text of any node (or slice of it) to_string() is the corresponding substring of the root's text, chunks concatenate to it, len() is its byte length and is_empty() tells whether it is empty.", "quantifier": "all trees, nodes, slices on char boundaries", "why_tests_cant": "chunk intersection over all token layouts", "anchors": ["src/syntax_text.rs:SyntaxText", "src/syntax_text.rs:tokens_with_ranges", "src/syntax_text.rs:try_fold_chunks"]}
{"id": "C27", "title": "SyntaxText::slice composes", "statement": "slice(r) denotes the substring r of the text for every range form, panics exactly when r is reversed or out of bounds, and slicing a slice is slicing with the shifted range.", "quantifier": "all texts and ranges", "why_tests_cant": "all nested ranges", "anchors": ["src/syntax_text.rs:slice", "src/syntax_text.rs:SyntaxTextRange"]}
{"id": "C28", "title": "Character queries", "statement": "contains_char(c) iff c occurs in the text; find_char(c) is the byte offset of the first occurrence or None; char_at(o) is the character starting at byte o (None at or past the end).", "quantifier": "all texts, characters, offsets, chunkings", "why_tests_cant": "chunk boundary cases", "anchors": ["src/syntax_text.rs:contains_char", "src/syntax_text.rs:find_char", "src/syntax_text.rs:char_at"]}
{"id": "C29", "title": "SyntaxText equality", "statement": "Comparing two SyntaxTexts (or a SyntaxText with a str, either way) is true iff the strings are equal, regardless of how each is chunked into tokens (incl. empty tokens).", "quantifier": "all pairs of chunkings", "why_tests_cant": "all chunkings of all strings", "anchors": ["src/syntax_text.rs:PartialEq for SyntaxText", "src/syntax_text.rs:zip_texts", "src/syntax_text.rs:PartialEq<str> for SyntaxText"]}
{"id": "C30", "title": "SyntaxNodePtr round trip", "statement": "Resolving SyntaxNodePtr::new(n) against the root yields a node of the same kind and range; it is n itself when no other node has n's kind and range and the range is non-empty; resolving against a non-root yields None. (For empty ranges the round trip can fail - counterexample proved.)", "quantifier": "all trees and nodes, all conforming binary searches", "why_tests_cant": "all trees", "anchors": ["src/ast.rs:SyntaxNodePtr", "src/ast.rs:try_to_node"]}
{"id": "C31", "title": "Typed AST helpers", "statement": "support::child is the first castable child, support::children exactly the castable children in order, support::token the first child token of that kind; AstPtr resolution agrees with SyntaxNodePtr resolution followed by cast.", "quantifier": "all trees and cast predicates", "why_tests_cant": "all trees and casts", "anchors": ["src/ast.rs:support", "src/ast.rs:AstPtr", "src/ast.rs:AstChildren"]}
{"id": "C32", "title": "Sibling list stays sorted, circular and complete", "statement": "For every sequence of link/unlink/adjust on the intrusive list, the ring reached from the head contains exactly the linked elements, in strictly increasing key order, with next/prev mutually inverse; link finds an existing element of equal key; unlinking the last element empties the list; every loop terminates.", "quantifier": "all operation sequences, all heaps", "why_tests_cant": "pointer structure invariants over unbounded histories", "anchors": ["src/sll.rs:link", "src/sll.rs:unlink", "src/sll.rs:adjust", "src/sll.rs:add_to_sll"]}
{"id": "C33", "title": "detach cuts out exactly one subtree", "statement": "After n.detach() on a mutable tree n is a root with unchanged content, and the old tree is the old tree with n's position removed; detaching a root is a no-op; on an immutable tree it panics.", "quantifier": "all mutable trees, all positions, any set of live handles", "why_tests_cant": "all handle sets and tree shapes", "anchors": ["src/cursor.rs:NodeData::detach", "src/cursor.rs:respine"]}
{"id": "C34", "title": "splice_children replaces a child range", "statement": "node.splice_children(a..b, els) leaves children[..a] ++ els ++ children[b..]. (FALSE in this commit: at most one child is deleted because the child iterator stops after a detach; proved as counterexample, and the exact behaviour is proved.)", "quantifier": "all mutable trees, ranges, inserted elements", "why_tests_cant": "all ranges and live handle sets", "anchors": ["src/cursor.rs:splice_children", "src/cursor.rs:attach_child", "src/cursor.rs:SyntaxElementChildren"]}
{"id": "C35", "title": "Iterating while detaching", "statement": "`for c in node.children_with_tokens() { c.detach() }` detaches every child, as the module documentation promises. (FALSE in this commit; counterexample proved.)", "quantifier": "all mutable nodes", "why_tests_cant": "all widths", "anchors": ["src/cursor.rs:SyntaxElementChildren", "src/cursor.rs:Iterator for SyntaxNodeChildren"]}
{"id": "C36", "title": "Handles follow their element through mutations", "statement": "Across any sequence of detach/splice operations every live handle keeps denoting the same logical element: kind, text and children of elements not on the edited spine are unchanged and indices/ranges are updated to the element's new position.", "quantifier": "all mutation histories, all sets of live handles", "why_tests_cant": "index fix-up of arbitrary live siblings", "anchors": ["src/cursor.rs:detach", "src/cursor.rs:attach_child", "src/cursor.rs:respine", "src/sll.rs:adjust"]}
{"id": "C37", "title": "Green and immutable trees are never changed", "statement": "No operation on a mutable tree changes any immutable tree or any green node previously obtained from it; mutability of a handle never changes; immutable and mutable elements cannot be mixed (panic).", "quantifier": "all histories", "why_tests_cant": "frame property over all histories", "anchors": ["src/cursor.rs:splice_children", "src/cursor.rs:attach_child", "src/cursor.rs:clone_for_update"]}
{"id": "C38", "title": "No use after free, no double free, no dangling cursor", "statement": "For every sequence of API calls with live handles, every internal dereference hits a live object, nothing is freed twice, reference counts equal handles plus live children, and every element's green data is kept alive by its root.", "quantifier": "all call sequences", "why_tests_cant": "memory-safety over all histories", "anchors": ["src/cursor.rs:free", "src/cursor.rs:NodeData::new", "src/cursor.rs:detach", "src/cursor.rs:attach_child", "src/cursor.rs:respine"]}
{"id": "C39", "title": "No leaks", "statement": "When all handles have been dropped every cursor object has been freed and every green reference taken has been released. (FALSE for to_next_sibling[_or_token] on an unshared root: counterexample; proved otherwise.)", "quantifier": "all call sequences ending with all handles dropped", "why_tests_cant": "all histories", "anchors": ["src/cursor.rs:free", "src/cursor.rs:to_next_sibling"]}
{"id": "C40", "title": "Cyclic attachment", "statement": "Splicing an element into itself or one of its own descendants is rejected. (FALSE: not checked; the re-spine loop never terminates - counterexample proved; all other attach calls terminate.)", "quantifier": "all attach calls", "why_tests_cant": "divergence cannot be observed by tests", "anchors": ["src/cursor.rs:attach_child", "src/cursor.rs:respine"]}
{"id": "C41", "title": "Arc frees exactly once", "statement": "For every number of threads and every interleaving of atomic clone/drop steps on a green allocation: it is freed exactly once, by the thread that drops the last reference, never while a reference exists, and unique access is granted only to a sole owner.", "quantifier": "all interleavings, any number of threads and references", "why_tests_cant": "schedules", "anchors": ["src/arc.rs:Clone for Arc", "src/arc.rs:Drop for Arc", "src/arc.rs:is_unique", "src/arc.rs:get_mut"]}
{"id": "C42", "title": "Reference count never wraps", "statement": "With the abort guard the Arc counter never wraps around to a smaller value as long as fewer than 2^63 clones are in flight at once; the cursor's u32 counter aborts instead of wrapping.", "quantifier": "all histories incl. forgotten references", "why_tests_cant": "2^63 clones", "anchors": ["src/arc.rs:MAX_REFCOUNT", "src/arc.rs:Clone for Arc", "src/cursor.rs:inc_rc"]}
{"id": "C43", "title": "Allocation layout arithmetic", "statement": "For every header/element layout and item count, the size computed for a ThinArc allocation is the exact padded size of the fat object (so deallocation uses the same layout), or construction panics; it is never too small.", "quantifier": "all 64-bit sizes, power-of-two alignments and counts", "why_tests_cant": "2^64 counts", "anchors": ["src/arc.rs:from_header_and_iter"]}
{"id": "C44", "title": "ThinArc construction", "statement": "from_header_and_iter stores exactly the iterator's items in order with the right stored length, or panics if the iterator's reported length is wrong; thin/thick conversions preserve pointer and length.", "quantifier": "all iterators, honest or lying about len", "why_tests_cant": "adversarial ExactSizeIterator", "anchors": ["src/arc.rs:from_header_and_iter", "src/arc.rs:into_thin", "src/arc.rs:from_thin"]}
{"id": "C45", "title": "TokenAtOffset", "statement": "Iterating a TokenAtOffset yields its tokens left to right with exact size hints; left_biased/right_biased are first/last; map commutes.", "quantifier": "all values", "why_tests_cant": "generic in the payload", "anchors": ["src/utility_types.rs:TokenAtOffset"]}
{"id": "C46", "title": "Serialized form is faithful", "statement": "Serializing a node yields nested maps {kind,text_range,children} / {kind,text_range,text} mirroring the tree exactly, so that the text and shape of the tree can be recovered from it.", "quantifier": "all trees", "why_tests_cant": "all trees", "anchors": ["src/serde_impls.rs:Serialize for SyntaxNode", "src/serde_impls.rs:Serialize for SyntaxToken"]}
{"id": "C47", "title": "by_kind on a started iterator", "statement": "by_kind called on a partially consumed children iterator yields the matching elements not yet yielded. (FALSE in this commit: the last yielded element is yielded again; counterexample and exact behaviour proved.)", "quantifier": "all iterators states", "why_tests_cant": "all states", "anchors": ["src/cursor.rs:by_kind"]}
{"id": "C48", "title": "Display prints exactly the text", "statement": "to_string() (Display) of any node or token yields exactly its text - for a node the concatenation of its tokens' texts in order - and never panics.", "quantifier": "all trees, nodes and tokens", "why_tests_cant": "all tree shapes", "anchors": ["src/cursor.rs:Display for SyntaxNode", "src/cursor.rs:Display for SyntaxToken"]}
{"id": "C49", "title": "Reading programs see only trees", "statement": "Any program that navigates, clones, drops and inspects handles ends, on shared mutable cursor data with arbitrarily many other live handles, exactly as it would on plain immutable values: same result, same panic; it changes neither the tree nor what other handles denote; results do not depend on which other handles or objects exist. If it panics, unwinding can drop its handles in any order; afterwards the handles of others denote what they did before, and if there are none and none was lost, everything is freed.", "quantifier": "all reading programs (arbitrary branching and loops over handle operations), all reachable states after any edit history, all sets of other live handles", "why_tests_cant": "programs, histories and sharing are unbounded", "anchors": ["src/cursor.rs:SyntaxNode", "src/cursor.rs:SyntaxToken", "src/cursor.rs:NodeData", "src/cursor.rs:to_next_sibling"]}
{"id": "C50", "title": "Iterators, walks and searches on live trees", "statement": "On any reachable state (mutable or not, after any edits, with any other handles alive) children, ancestors, siblings, by_kind iterators, typed children, preorder walks with skip_subtree, first/last/next/prev token, token_at_offset, covering_element, child_or_token_at_range, SyntaxNodePtr resolution, text chunks and replace_with return exactly the elements of the current tree the documentation names, leave the tree and all handles unchanged, and drop every temporary handle they create.", "quantifier": "all reachable states, all handles, all arguments", "why_tests_cant": "all edit histories times all trees times all sets of live handles", "anchors": ["src/cursor.rs:SyntaxNodeChildren", "src/cursor.rs:Preorder", "src/cursor.rs:PreorderWithTokens", "src/cursor.rs:token_at_offset", "src/cursor.rs:covering_element", "src/cursor.rs:child_or_token_at_range", "src/ast.rs:SyntaxNodePtr", "src/syntax_text.rs:try_fold_chunks", "src/cursor.rs:replace_with"]}
{"id": "C51", "title": "Green memory shared by threads", "statement": "In any interleaving of any number of threads that build green tokens and nodes, read them through (borrowed) references, clone subtrees out of them and drop references, no freed allocation is ever accessed or freed again; an allocation is freed exactly when the program can no longer get at it (through any held tree) once the destructors that are running have finished; destructors finish after a fixed number of steps, whatever their order; what is stored at an allocation never changes, new nodes contain exactly the given children, and clones denote the same tree.", "quantifier": "all interleavings, all DAGs of shared subtrees, any number of threads and references", "why_tests_cant": "schedules and sharing graphs are unbounded", "anchors": ["src/arc.rs:Arc", "src/arc.rs:drop_slow", "src/arc.rs:ThinArc", "src/green/node.rs:GreenNode::new", "src/green/node.rs:ToOwned for GreenNodeData"]}
{"id": "C52", "title": "Typed kinds", "statement": "With any language mapping (also one that maps several raw kinds to one typed kind): kind() of a typed handle is the typed kind of the element at its position; first_child_by_kind, next_sibling_by_kind, their or_token forms and the by_kind iterators select exactly by typed kind; ancestors() of an element lists exactly the enclosing nodes; typed pointers resolve by typed kind (so kinds the language does not tell apart can be confused).", "quantifier": "all languages, trees, positions and matchers", "why_tests_cant": "language mappings and trees are unbounded", "anchors": ["src/api.rs:Language", "src/api.rs:SyntaxNode::kind", "src/api.rs:first_child_by_kind", "src/api.rs:SyntaxNodeChildren::by_kind", "src/api.rs:SyntaxElement::ancestors", "src/ast.rs:SyntaxNodePtr"]}
{"id": "C53", "title": "Green objects in memory, iterating green children", "statement": "GreenToken::new with any kind and text stores bytes from which kind, text and length read back exactly (always valid UTF-8), and tokens compare equal iff kind and text are; GreenNode::new with any iterator, honest or lying about its length, either panics or yields a node whose children are exactly the elements yielded, with the sums of the preceding text lengths as offsets and their total as length, never writing outside the allocation; the children iterator of a green node answers any sequence of next, next_back, nth, nth_back, len, size_hint, and count, last, fold, rfold afterwards, as the list of children consumed from both ends.", "quantifier": "all texts, all iterators, all sequences of iterator calls", "why_tests_cant": "adversarial iterators and unbounded call sequences", "anchors": ["src/green/node.rs:GreenNode::new", "src/green/node.rs:Children", "src/green/token.rs:GreenToken::new", "src/green/token.rs:text", "src/arc.rs:from_header_and_iter"]}
{"id": "C54", "title": "Green data borrowed from a handle", "statement": "text() and green() of a token, and green() of a node of an immutable tree, are references that stay valid (the object they point into is not freed) and show the same data for as long as the handle they were borrowed from is kept, whatever is done meanwhile through other handles, including detaching or moving the element and editing around it. green() of a node of a mutable tree hands out a reference of its own instead - and has to: the object can be freed by an edit while the handle is kept.", "quantifier": "all reachable states, all handles, all histories that keep the handle", "why_tests_cant": "edit histories and sets of handles are unbounded", "anchors": ["src/cursor.rs:SyntaxToken::text", "src/cursor.rs:SyntaxToken::green", "src/cursor.rs:SyntaxNode::green", "src/cursor.rs:NodeData::green"]}
{"id": "C55", "title": "Splicing in what a lazy iterator produces", "statement": "splice_children accepts an iterator, whose next() may itself run code over the same trees (navigate, clone, drop, detach and move elements, edit other nodes). Whatever it does, every state in between and afterwards is as safe as any other, and the spliced node is still there. If its code does not change the content of the spliced node, the children of the node are at each time the old ones without the deleted ones, with the elements returned so far in order at the start of the range, each with the content it had when it was returned; every mutable element that is outside the node is accepted. An iterator that runs no code is the same as a list.", "quantifier": "all reachable states, nodes, ranges, iterators and the code they run", "why_tests_cant": "what an iterator can do in between is unbounded", "anchors": ["src/cursor.rs:SyntaxNode::splice_children", "src/cursor.rs:NodeData::attach_child"]}
{"id": "C56", "title": "32-bit offsets are exact", "statement": "In a tree with less than 2^32 bytes of text, with or without overflow checks: text_range of every node and token, child_or_token_at_range, covering_element, token_at_offset, text(), len, is_empty, slice, chunks, find_char, char_at and comparison of texts give, for every 32-bit argument, in range or not, the results of exact arithmetic; arguments that would overflow are refused by a panic and never wrap around into a valid range.", "quantifier": "all trees below 2^32 bytes, mutable or not, all handles, all 32-bit arguments, both build modes", "why_tests_cant": "2^64 pairs of arguments, and trees of up to 4 GiB", "anchors": ["src/cursor.rs:offset", "src/cursor.rs:offset_mut", "src/cursor.rs:text_range", "src/cursor.rs:child_or_token_at_range", "src/cursor.rs:token_at_offset", "src/cursor.rs:covering_element", "src/syntax_text.rs:slice", "src/syntax_text.rs:find_char", "src/syntax_text.rs:char_at", "src/syntax_text.rs:zip_texts"]}
{"id": "C57", "title": "Edits in builds with overflow checks", "statement": "Building with overflow checks does not change what edits of mutable trees do, and does not make them unsafe, as long as the texts of all trees together are shorter than 2^32 bytes and no element is inserted below itself (C40). (Beyond 2^32 bytes it is FALSE: an insertion that makes a text 2^32 bytes or longer panics halfway, and the handles that remain on the inserted element have dangling green data; counterexample under C38.)", "quantifier": "all call sequences up to then, all calls", "why_tests_cant": "needs trees of up to 4 GiB after any history", "anchors": ["src/green/node.rs:GreenNode::new", "src/cursor.rs:attach_child", "src/cursor.rs:detach", "src/cursor.rs:respine", "src/arc.rs:from_header_and_iter"]}
{"id": "C58", "title": "The tutorial's S-expression parser", "statement": "For every text, the parser of examples/s_expressions.rs, driving a builder with any cache that has been used before, neither panics nor loops forever. The lexer cuts the text into tokens in the only way that fits the description of the tokens. The tree it returns has exactly the text, its tokens are the lexer's, and it is the only tree of the grammar (files of white space, atoms, lists, stray closing parentheses, unclosed lists) with these tokens. It reports one error for each stray closing parenthesis and one for each missing one, so none exactly if the parentheses are balanced.", "quantifier": "all texts, all token sequences, all builder histories, all hash functions", "why_tests_cant": "all texts, with any nesting and any errors", "anchors": ["examples/s_expressions.rs:parse", "examples/s_expressions.rs:lex", "examples/s_expressions.rs:sexp", "examples/s_expressions.rs:list", "src/green/builder.rs:GreenNodeBuilder"]}
{"id": "C59", "title": "The example parser of arithmetic expressions", "statement": "For every finite sequence of tokens, the parser of examples/math.rs, driving a builder with any cache that has been used before, neither panics nor loops forever, although it wraps nodes around finished ones at checkpoints. Its tree has exactly the tokens it has read, and is the only expression of the grammar (operands, products, sums, with error nodes for wrong and missing operands) that these tokens begin with; it stops at the first token that cannot continue an expression. If the tokens without the white space are a sum of products, all are read, and the tree groups them by precedence and from left to right: for every meaning of numbers and operators it has the value of the sum. (Finding: the tokens after the expression are not in the tree, so the parser is not lossless; counterexample proved.)", "quantifier": "all token sequences, all builder histories, all hash functions, all interpretations of the operators", "why_tests_cant": "all sequences of operators with any errors", "anchors": ["examples/math.rs:parse", "examples/math.rs:handle_operation", "examples/math.rs:parse_val", "examples/math.rs:peek", "src/green/builder.rs:start_node_at", "src/green/builder.rs:checkpoint"]}
{"id": "C60", "title": "Evaluation of S-expressions through typed handles", "statement": "For every text, evaluating the elements of the tree that the example parser has built for it (typed wrappers, children iterators, clones of handles, on any heap and next to any other handles) ends and drops every handle it has made; the results are those of the specification, which are unique. If all numbers that come up fit into 64 bits, an expression has exactly its mathematical value (none if something is divided by zero); with overflow checks, every value returned is exact; something has a value only if it is an expression. The evaluation panics only where an operation overflows; without overflow checks only where -2^63 is divided by -1. (Finding: it does panic there, in both kinds of builds; proved.)", "quantifier": "all texts, all trees that are on any reachable heap and all handles on them, builds with and without overflow checks", "why_tests_cant": "all programs of the little language, all sizes of trees, all states of the heap", "anchors": ["examples/s_expressions.rs:eval", "examples/s_expressions.rs:sexps", "examples/s_expressions.rs:kind", "examples/s_expressions.rs:as_op", "examples/s_expressions.rs:cast", "src/api.rs:children", "src/cursor.rs:children"]}
{"id": "C61", "title": "Editing programs see only forests of trees", "statement": "Every program that plants trees, navigates, clones, drops and forgets handles, copies trees (clone_subtree, clone_for_update), detaches, splices and attaches elements, looks at elements (kind, range, index, mutability, content), compares them, catches panics and decides from what it has seen what to do next ends on the real data structure exactly as it ends on a forest: numbered plain trees, and for each handle a tree and a position, without pointers, reference counts or shared nodes. It gives the same result, panics, or loops where the run on the forest does, and the data structure afterwards, also after a panic, stands for the forest that is left. The exception is a panic that leaves an element in no tree (C38): if the program does not catch it, its handles can still be dropped. After a panic the unwinding can drop the handles in any order, and frees everything if no handle was lost. Nothing is said about comparing two different elements of equal content and range (such elements can be equal or not, C24). The only other outcome is the abort at about 2^32 handles. Any reachable state is such a start, and two states that stand for the same forest cannot be told apart by any program. No program changes an immutable tree or moves a handle inside one; detaching a child and attaching it where it was restores every tree and every other handle.", "quantifier": "all editing programs (all sequences of calls that depend on all earlier results), all reachable states, all handles, all trees", "why_tests_cant": "all programs: every sequence of edits through every pattern of aliased handles, of any length", "anchors": ["src/cursor.rs:detach", "src/cursor.rs:splice_children", "src/cursor.rs:attach_child", "src/cursor.rs:clone_for_update", "src/cursor.rs:clone_subtree", "src/cursor.rs:to_next_sibling", "src/cursor.rs:new_root", "src/cursor.rs:new_root_mut", "src/cursor.rs:NodeData"]}
{"id": "C62", "title": "The debug dump determines the tree", "statement": "The text that {:#?} of a node writes (one indented line per element, with kind, range and, for tokens, the text) is the same for two nodes exactly if they start at the same offset and look alike: the same shape, and at each place the same kind, the same length and, for a token, the same text as far as the dump shows it. So two nodes with the same dump, one of which has only tokens below 25 bytes, have equal trees and equal ranges: comparing dumps, as snapshot tests do, misses no difference. For longer tokens, which are shown shortened, this fails. It is assumed that kinds, ranges and strings are written as different texts without line breaks, as those of Rust are.", "quantifier": "all pairs of nodes of all trees (any kinds, texts, shapes, depths), all ways to write kinds, ranges and strings that are injective and have no line breaks", "why_tests_cant": "all pairs of trees: a test compares a few, and the dump of one tree cannot show that no other tree has the same", "anchors": ["src/api.rs:SyntaxNode", "src/api.rs:SyntaxToken"]}
{"id": "C63", "title": "Printing the tree of an expression", "statement": "print of examples/math.rs, on any element of any tree, prints one line per element of the tree, in document order, indented by two spaces per level, with the kind and, for a token, its text; it drops every handle it takes or makes. It panics exactly if some element has a kind that the language does not know. The tree that the parser makes of any tokens is printed without a panic. Two trees with the same output are equal.", "quantifier": "all trees on the heap, all elements, all token sequences for the parser, all ways to write strings that begin with a quote, are injective and have no line breaks", "why_tests_cant": "all trees of any depth and all token sequences", "anchors": ["examples/math.rs:print", "examples/math.rs:kind_from_raw", "examples/math.rs:main", "src/cursor.rs:children_with_tokens"]}
{"id": "C64", "title": "Searching by kind with a predicate that uses the library", "statement": "first_child_by_kind, first_child_or_token_by_kind, next_sibling_by_kind and next_sibling_or_token_by_kind (and the by_kind iterators made of them) call a closure of the program for every element they look at. Whatever a safe closure does with the handles it has captured, the search must not access freed memory; it asks about the elements in order until one is accepted and returns the handle of that one. This is false of the code: in a mutable tree the closure can edit the node that is being searched, which frees the green node whose children are being iterated over, or makes the search return a handle of a child that is not there any more. It holds if the node is immutable, and if the closure makes any calls that do not change the content of the node that is searched: it may edit all other trees, and the same tree elsewhere, and it may move the node itself.", "quantifier": "all reachable states of all programs over the cursor API, all nodes and elements in them, all closures that make any number of calls of the API in any order at every question", "why_tests_cant": "all closures and all states: a use after free shows only with the right allocator luck, and no test tries a predicate that edits", "anchors": ["src/cursor.rs:first_child_by_kind", "src/cursor.rs:first_child_or_token_by_kind", "src/cursor.rs:next_sibling_by_kind", "src/cursor.rs:next_sibling_or_token_by_kind", "src/cursor.rs:green_siblings", "src/cursor.rs:green_ref", "src/cursor.rs:respine"]}
{"id": "C65", "title": "Sharing green trees between threads is free of data races", "statement": "Threads that build, read, clone, lend to each other and drop green nodes and tokens (which are Send and Sync) never race: of two accesses to the same allocation, one of which initialises it or runs or ends its destructor, the first happens before the second in the sense of the C11 memory model, given only that references get from thread to thread by means that synchronise. This needs both memory orderings in the code, the Release of the decrement and the Acquire of the load before the destructor. The orderings are also strong enough for everything that is true of the trees with sequentially consistent counters to be true with the counters of the code.", "quantifier": "all interleavings of any steps of any number of threads over any number of allocations that share children in any way, all values the loads may read under release/acquire semantics", "why_tests_cant": "all interleavings and all weak-memory behaviours: x86 machines do not show most of them, and a missing ordering shows as corruption only under load", "anchors": ["src/arc.rs:Arc::drop", "src/arc.rs:Arc::clone", "src/arc.rs:Arc::drop_slow", "src/green/node.rs:GreenNode::new", "src/green/token.rs:GreenToken::new"]}
{"id": "C66", "title": "The documented running times", "statement": "child_or_token_at_range takes a number of comparisons logarithmic in the number of children of the node. covering_element and SyntaxNodePtr::try_to_node take a number of steps at most linear in the depth and logarithmic in the width of the tree. replace_with takes time proportional to the depth of the element.", "quantifier": "all trees, all nodes and tokens, all ranges and pointers", "why_tests_cant": "tests do not measure asymptotic costs; a search that goes through all children passes them, and slow cases need trees wider than tests build", "anchors": ["src/api.rs:SyntaxNode::child_or_token_at_range", "src/api.rs:SyntaxNode::replace_with", "src/api.rs:SyntaxToken::replace_with", "src/ast.rs:SyntaxNodePtr::try_to_node", "src/green/node.rs:GreenNodeData::child_at_range", "src/sll.rs:link"]}
{"id": "C67", "title": "Errors of writers and serializers", "statement": "Formatting a node, token or text (Display, Debug, the tree dump) into a writer that fails at some point, and serializing into a serializer that fails at some point, returns the error of the first call that failed, makes no call after it, and does not panic. Until then the calls are the ones made with a sink that never fails, so that the output is a prefix of the complete output.", "quantifier": "all trees, handles and texts, all writers and serializers with any state, failing at any call, all formatting options", "why_tests_cant": "a test picks one writer and one place where it fails; an error that is dropped in one branch goes unnoticed", "anchors": ["src/cursor.rs:Display", "src/api.rs:Debug", "src/syntax_text.rs:Display", "src/green/node.rs:Display", "src/serde_impls.rs:serialize"]}
{"id": "C68", "title": "Formatting options apply to the text shown", "statement": "Displaying a node, a token or a text with a width, an alignment, a fill character or a precision shows its text with these options applied, as displaying its to_string() would.", "quantifier": "all trees, nodes, tokens and texts, all formatting options", "why_tests_cant": "the options have effects that depend on how the text is divided into tokens; tests use {} only", "anchors": ["src/cursor.rs:Display", "src/syntax_text.rs:Display", "src/green/node.rs:Display", "src/green/token.rs:Display"]}
{"id": "C69", "title": "Walks over trees that are edited on the way", "statement": "A program may edit trees between two calls of next() on a preorder walk. Each call hands out the pending event and, as long as that event belongs to the walk of what the start node contains now, makes the event that follows it there the pending one; trees and other handles are unchanged. A loop over a walk in an immutable tree sees the whole depth-first walk, whatever its body does, and so does one in a mutable tree if the body edits only other trees. A loop that detaches elements when it leaves them visits everything once, in order, does not panic, and in the end exactly the chosen elements are gone, decided from the bottom up; detaching them when they are entered instead ends the walk early (this is a known trap, stated with a witness). After skip_subtree() a pending element that was detached makes next() panic. Detaching the first child until there is none removes all children.", "quantifier": "all reachable states, all start elements, all walks with and without tokens, all edits between the calls, all loop bodies, all choices of elements to remove", "why_tests_cant": "the iterator holds handles into a tree that changes under it; tests edit one tree at one place", "anchors": ["src/cursor.rs:Preorder", "src/cursor.rs:PreorderWithTokens", "src/cursor.rs:preorder", "src/cursor.rs:preorder_with_tokens", "src/cursor.rs:skip_subtree", "src/cursor.rs:detach"]}
{"id": "C70", "title": "The order in which elements are detached cannot be observed", "statement": "A program collects handles on elements and detaches all of them afterwards. The elements may be anywhere: one below the other, roots, the same element twice. If all are in mutable trees, no detach panics in any order, and no later observation (content, ranges, indices, neighbours, equality, further edits) tells one order from another. Every element, detached or not, has in the end the content that it had, without the detached elements below it; a detached element is the root of its tree; an element with no detached element between it and an element above it is still below that one, each index less by the number of earlier siblings that have gone; different elements stay different. If one of the elements is in an immutable tree, every order panics. In particular, collecting the children that satisfy a condition, with or without tokens, and detaching them leaves exactly the other children, in order, and handles inside any child stay where they are in that child.", "quantifier": "all reachable states, all lists of handles and all their permutations, all later programs, all nodes and all conditions on children", "why_tests_cant": "the number of orders is exponential and the positions of elements that are not yet detached change with each detach; tests try one order on one tree", "anchors": ["src/cursor.rs:detach", "src/cursor.rs:children", "src/cursor.rs:children_with_tokens", "src/cursor.rs:to_next_sibling", "src/cursor.rs:to_next_sibling_or_token"]}
{"id": "C71", "title": "Every function of the typed API does what it says on the tree", "statement": "A typed handle, obtained from new_root or new_root_mut by any sequence of calls of functions of SyntaxNode<L>, SyntaxToken<L>, SyntaxElement<L> and their iterators that return handles, is a handle on a position of the tree, and for each position there is exactly one. On it, kind is the translated kind of the element there; text range, index, text and green element are those of the element; each navigation function, with nodes only or with tokens, with or without a matcher on typed kinds, returns the element that the tree prescribes, or nothing; iterators over children, siblings and ancestors and the walks with any use of skip_subtree yield the prescribed sequence; lookups by offset or range, copies and replace_with have the same meaning as for untyped handles; conversions to untyped handles and back lose nothing; equality of handles on elements with text is equality of positions.", "quantifier": "all green trees, mutable or not, all languages (functions from raw kinds to kinds), all sequences of API calls, all matchers, offsets, ranges and call numbers of iterators", "why_tests_cant": "there are about seventy functions, each a delegation that can go to the wrong function or lose the translation of kinds on a tree where that makes a difference; handles are combined by programs in arbitrary sequences", "anchors": ["src/api.rs:SyntaxNode", "src/api.rs:SyntaxToken", "src/api.rs:SyntaxElement", "src/api.rs:SyntaxNodeChildren", "src/api.rs:SyntaxElementChildren", "src/api.rs:Preorder", "src/api.rs:PreorderWithTokens", "src/api.rs:Language"]}
{"id": "C72", "title": "Laws of moving elements", "statement": "Sequences of detach and splice_children that a user takes to be equivalent are: detaching the first of the inserted elements before the call changes nothing; replacing the child a is detaching it and inserting in its place; inserting a list by one call is inserting a part of it and then, behind it, the rest; detaching a child and inserting it where it was, or inserting it where it is, changes nothing; of an element that is inserted somewhere and then detached or inserted elsewhere only the last place can be seen, and if that is where it was, nothing; detaching twice is detaching once; root trees are inserted into different nodes in any order, and into the same node from the right or, with shifted indices, from the left. Equivalent means: the same return or panic, and no program that goes on afterwards, with any handles it held before, can see a difference. It does not hold for detaching others than the first of the inserted elements before the call.", "quantifier": "all heaps that programs can reach, all handles held, all elements, nodes and indices, all lists of inserted elements, all continuations", "why_tests_cant": "every refactoring of an editing program relies on these equations for all trees and handles; a test compares two trees after two concrete sequences and does not see the handles into the parts that moved", "anchors": ["src/cursor.rs:SyntaxNode::splice_children", "src/cursor.rs:SyntaxNode::detach", "src/cursor.rs:NodeData::detach", "src/cursor.rs:NodeData::attach_child", "src/api.rs:SyntaxNode::splice_children", "src/api.rs:SyntaxNode::detach"]}
{"id": "C73", "title": "Programs do not disturb trees they have no handle in", "statement": "An editing program that holds further handles, in trees in which none of the handles it uses is, ends as it ends without them: with the same result, the same panic, or not at all. Afterwards those handles denote the elements they denoted, in trees of the same content and mutability. Whatever another program does with those handles, it sees the same before and after the first one, provided that one lost no handle (C39).", "quantifier": "all heaps that programs can reach, all sets of handles that are in trees of their own, all programs over the functions of the cursor API (with arbitrary branching, loops and caught panics), all programs that look at or edit the other trees afterwards", "why_tests_cant": "the cursor layer keeps parents, siblings and reference counts as raw pointers between shared objects: that an edit does not reach an unrelated tree is a claim about every heap and every sequence of calls; a test looks at the trees it edits", "anchors": ["src/cursor.rs:NodeData", "src/cursor.rs:NodeData::detach", "src/cursor.rs:NodeData::attach_child", "src/cursor.rs:NodeData::respine", "src/cursor.rs:free", "src/cursor.rs:SyntaxNode::splice_children", "src/cursor.rs:SyntaxNode::clone_for_update"]}
{"id": "C74", "title": "Pointers survive replacements elsewhere", "statement": "A pointer that resolves to a node with text resolves, in the tree made by replacing another element with replace_with, to the node in the same place, with the same content, when the element replaced comes after the node. When it comes before it, this is true of the pointer with its range moved by the difference of the lengths; when it is inside the node, of the pointer with the end of its range so moved. The replacement must have text, or no ancestor the kind of the node: otherwise the pointer may resolve to an ancestor.", "quantifier": "all trees, all positions of the node and of the element replaced, all replacements, all conforming binary searches", "why_tests_cant": "resolution picks the outermost node with a kind and range, so whether a pointer still finds its node depends on the lengths and kinds of everything around it, in every tree", "anchors": ["src/ast.rs:SyntaxNodePtr::try_to_node", "src/ast.rs:SyntaxNodePtr::to_node", "src/cursor.rs:SyntaxNode::replace_with", "src/cursor.rs:SyntaxToken::replace_with", "src/cursor.rs:SyntaxNode::child_or_token_at_range"]}
{"id": "C75", "title": "Dropping a green tree needs stack in proportion to its depth", "statement": "While a thread drops a reference to a green tree, whatever other threads do meanwhile, the destructors it is in, one inside the other, belong to elements each of which is a child of the next; so there are never more of them than the tree has levels, however many elements it has. If nothing else refers to the elements along a path of the tree, the thread does get into that many of them. So no fixed amount of stack is enough for all trees.", "quantifier": "all reachable states of the memory of green trees, all trees and sharings, all interleavings of any number of threads", "why_tests_cant": "the destructor is compiled glue that recurses through shared allocations; how deep it gets depends on the whole graph and on what other threads drop at the same time, and a test with a shallow tree never shows it", "anchors": ["src/arc.rs:Arc::drop", "src/arc.rs:Arc::drop_slow", "src/arc.rs:ThinArc", "src/green/node.rs:GreenNode", "src/green/node.rs:GreenChild"]}
{"id": "C76", "title": "Pointers to nodes survive insertions and removals elsewhere", "statement": "Take a pointer with a nonempty range that resolves to a node in an immutable tree, and replace some adjacent children of a node by others, by splicing, inserting or removing children of its green node and replacing it. If the children are behind the node pointed to, the same pointer resolves in the new tree to the same node, in the same place. If they are in front of it, the pointer moved by the difference of the two lengths resolves to the same node, in its place among the renumbered children. If they are children of the node pointed to or deeper in it, the pointer with only its end moved resolves to the node that holds them. In the first two cases this supposes that the new children have text or that no node around the one pointed to has its kind; a removal without that can make a surrounding node take the pointer over.", "quantifier": "all immutable trees, pointers with a nonempty range and nodes they resolve to, all nodes whose children are changed, all ranges of children and all lists of new children", "why_tests_cant": "a pointer holds only a kind and a range of bytes, so whether it still finds its node depends on the texts of everything before it, on the numbering of siblings and on every node around it in the new tree; tests take a few trees", "anchors": ["src/ast.rs:SyntaxNodePtr::try_to_node", "src/green/node.rs:GreenNodeData::splice_children", "src/green/node.rs:GreenNodeData::insert_child", "src/green/node.rs:GreenNodeData::remove_child", "src/cursor.rs:SyntaxNode::replace_with"]}
{"id": "C77", "title": "The work of hashing while trees are built", "statement": "A call of a builder computes the hash of at most one element, using those already known for its children, unless it makes a table of the cache grow; then every element of every tree in the table is hashed again. If tables double, as those of hashbrown do, and no cached tree ever has more than m elements, all the calls that use a cache together hash at most 2m + 1 elements per call. Without a bound on the cached trees, n calls hash at most n(2n + 1) elements, and building a token inside n nodes does take at least n * n / 8: no constant bounds the elements hashed per call.", "quantifier": "all programs with any number of builders and caches, all hash functions, all addresses, all call sequences; the lower bound for all hash functions that never give 0", "why_tests_cant": "tests do not measure work; the slow case needs deeply nested trees, and the bound is over all interleavings of builders that share a cache", "anchors": ["src/green/node_cache.rs:NodeCache::node", "src/green/node_cache.rs:NodeCache::token", "src/green/node_cache.rs:node_hash", "src/green/node_cache.rs:token_hash", "src/green/builder.rs:GreenNodeBuilder::finish_node", "src/green/builder.rs:GreenNodeBuilder::token"]}
{"id": "C78", "title": "The work of walking a tree", "statement": "Iterating over the child nodes of a node looks at each of its child slots once: when the child in slot i has been returned, slots 0 to i have been looked at and no other, and no call after the end looks at any. A whole preorder walk of a subtree looks at each child slot in it exactly once; if the caller skips subtrees, at no more than that. So both are linear in the size of what they visit, although every step searches for the next node.", "quantifier": "all trees, all nodes, all sets of skipped positions, all numbers of calls, shared and unshared handles", "why_tests_cant": "tests do not measure work; the bound is a sum over all steps of walks of trees of any width and depth", "anchors": ["src/cursor.rs:SyntaxNode::first_child", "src/cursor.rs:SyntaxNode::next_sibling", "src/cursor.rs:SyntaxNode::to_next_sibling", "src/cursor.rs:Iterator for SyntaxNodeChildren", "src/cursor.rs:Iterator for Preorder"]}
{"id": "C79", "title": "Ranges nest, are ordered and tile", "statement": "The range of every ancestor contains the range of the element. Of two elements of a tree, one is an ancestor of the other or one ends before the other begins: ranges never overlap partly. The first child begins where its node begins, the last ends where it ends, neighbours touch. In the order of descendants_with_tokens elements never begin earlier than those before them, and the tokens, in that order, tile the range of the node: every byte belongs to exactly one token.", "quantifier": "all trees, all pairs of handles", "why_tests_cant": "the property relates all pairs of elements in trees of any shape, with empty tokens and nodes anywhere", "anchors": ["src/cursor.rs:NodeData::text_range", "src/cursor.rs:NodeData::offset", "src/cursor.rs:SyntaxNode::ancestors", "src/cursor.rs:SyntaxNode::descendants_with_tokens", "src/cursor.rs:SyntaxNode::first_child_or_token", "src/cursor.rs:NodeData::next_sibling_or_token"]}
{"id": "C80", "title": "A panic while a green node is built leaks, and does nothing worse", "statement": "GreenNode::new asks its iterator for a length and then takes the elements one by one, and the iterator may run any code in between: drop and clone green elements, hand them to other threads, build other nodes. If the iterator yields as many elements as it said, the node has them as children, in order. If it yields fewer or more, or panics, the call panics; then no memory is freed twice or used after it was freed, then or later, no other reference is affected, and no tree changes. Exactly the buffer and the elements already taken over, with what is below them, are never freed; everything else is freed once nothing refers to it, as without panics. An element beyond the promised length stays with its owner.", "quantifier": "all interleavings of any number of threads that create, read, clone, drop, lend and build green elements, with any number of nested constructions, each ending in time, early, late or by a panic at any element", "why_tests_cant": "a test has one iterator that misbehaves at one place; leaks and double frees are not seen by assertions", "anchors": ["src/arc.rs: ThinArc::from_header_and_iter", "src/green/node.rs: GreenNode::new"]}
{"id": "C81", "title": "Edits of a mutable tree are edits of its text", "statement": "Detaching an element of a mutable tree deletes exactly its text from the text of the tree, and inserting a detached tree as a child inserts exactly its text at the place where that child begins. The ranges reported by text_range() follow: elements in front of the edit keep their range, elements around it keep their start and shrink or grow by the length of the text, elements behind it keep their length and move by that length, elements inside what was detached or inserted keep their length and count from the new start, and ranges in every other tree are unchanged.", "quantifier": "all reachable states, all mutable elements to detach, all detached mutable trees to insert and all places in another mutable tree, and all live handles anywhere", "why_tests_cant": "Offsets in a mutable tree are recomputed from the parents and siblings on every call; the claim compares the ranges of all handles before and after an edit, for every shape of tree and every history that led to it.", "anchors": ["src/cursor.rs: SyntaxNode::detach, SyntaxNode::splice_children, NodeData::offset_mut, NodeData::text_range, NodeData::attach_child, NodeData::respine", "src/sll.rs: link, unlink, adjust_if_present"]}
{"id": "C82", "title": "Texts that are kept while trees are edited", "statement": "The text() of a node of a mutable tree stands for the text of the node, also after edits: to_string() is the text that the node has now, len() is its length. (Checked against the code: FALSE. A text remembers the range that the node had when it was taken. Afterwards to_string() gives what this range and the present range of the node have in common, which can be less than the text of the node or nothing, and it panics if that cuts a character in two; len() stays what it was. So detaching an element elsewhere in the tree can make to_string() panic, although nothing in the node has changed. It holds as long as the node has the range that it had.)", "quantifier": "all reachable states after any edits, all handles on nodes, all ranges that a text may have kept", "why_tests_cant": "the range of a node changes with every edit in front of it; tests take a text and use it at once", "anchors": ["src/syntax_text.rs: SyntaxText::new, len, tokens_with_ranges, try_fold_chunks, Display", "src/cursor.rs: SyntaxNode::text, SyntaxNode::detach, NodeData::offset_mut"]}
{"id": "C83", "title": "Replacing a child replaces its text", "statement": "splice_children(a..b, trees) on a node of a mutable tree, with at most one child to remove and any number of detached trees to put in, replaces in the text of the tree exactly the text of that child by the texts of the new trees, in order. Every handle sees this: text_range() of elements in front of the place stays, of elements behind it moves by the difference in length, of the node and of everything above it the end moves by the difference; elements of the new trees now start behind the new trees that come before them; elements of the removed child count from its start; other trees do not change. (Wider ranges are C34's and C35's subject: the code removes only their first child.)", "quantifier": "all reachable states, all nodes of mutable trees, all ranges of at most one child, all lists of distinct detached mutable trees, all live handles", "why_tests_cant": "the effect on ranges depends on where every other handle lies relative to the place and on all lengths in the tree", "anchors": ["src/cursor.rs: SyntaxNode::splice_children, attach_child, detach_recursive, NodeData::detach, attach, offset_mut, text_range"]}
{"id": "C84", "title": "Comparing texts of mutable trees", "statement": "text() of two nodes of mutable trees, in one tree or in two, compare equal with == if and only if the nodes have the same text, also when the trees have been edited since the texts were taken. In particular == does not depend on the order of its sides. (Checked against the code: FALSE. Each text remembers the range that its node had. After an edit in front of one of the nodes, == can say that texts are equal which are not, and say the opposite with the sides exchanged. It holds as long as both nodes have the ranges that they had. For any ranges, as long as no character is cut in two: == ends, it says true if the ranges have equal lengths and what they show is equal, and if it says true, then the ranges have equal lengths and what one side shows is how the other begins.)", "quantifier": "all reachable states after any edits, all pairs of handles on nodes, all ranges that the texts may have kept, all ways in which the two texts are divided into tokens", "why_tests_cant": "whether the rest of a token is lost depends on how both texts are divided into tokens and on edits anywhere in front of the nodes; tests compare texts that were just taken", "anchors": ["src/syntax_text.rs: PartialEq for SyntaxText, zip_texts, tokens_with_ranges", "src/cursor.rs: SyntaxNode::text, SyntaxNode::detach"]}
{"id": "C85", "title": "The readers of one text agree, however old it is", "statement": "A text() of a node of a mutable tree, read after any edits, has some string in view: what the range it remembers and the present range of the node have in common. As long as that cuts no character in two, all that read the text see this string: to_string() is it, contains_char(c) says whether c occurs in it, find_char(c) is the byte offset in it of the first c, char_at(o) is the character that begins at byte o of it, None at its end or behind, and a panic inside a character, and comparing with a str says whether it is this str. Reading has no effect on the tree or on other handles.", "quantifier": "all reachable states after any edits, all handles on nodes, all ranges that a text may have kept, all characters, offsets and strings, all ways in which the text is divided into tokens", "why_tests_cant": "the readers go through the tokens separately and count bytes across them; which bytes are in view depends on the edits made since the text was taken", "anchors": ["src/syntax_text.rs: SyntaxText::contains_char, find_char, char_at, try_fold_chunks, tokens_with_ranges, Display, PartialEq<str>"]}
{"id": "C86", "title": "Slices of texts of mutable trees", "statement": "For text() of a node of a mutable tree, however old, t.slice(a..b) panics exactly if not a <= b <= t.len(), otherwise t.slice(a..b).to_string() gives the bytes a..b of t.to_string(), as far as it has them. (Checked against the code: the part about to_string() is FALSE. If something was inserted in front of the node after the text was taken, the slice begins too early: a text that shows \"a\" can have an empty slice 0..1. It holds as long as the node does not begin behind the place where it began when the text was taken, in particular after removals in front of it and any changes behind or inside it. In every case the slice shows what the sliced range and the present range of the node have in common.)", "quantifier": "all reachable states after any edits, all handles on nodes, all ranges that a text may have kept, all forms of range argument, all ways in which the text is divided into tokens", "why_tests_cant": "where a slice begins depends on the edits made in front of the node since the text was taken; tests slice texts that were just taken", "anchors": ["src/syntax_text.rs: SyntaxText::slice, tokens_with_ranges, Display", "src/cursor.rs: SyntaxNode::text, SyntaxNode::splice_children"]}
{"id": "C87", "title": "Edits behind a node leave it and the texts kept of it alone", "statement": "Take an element of a mutable tree, and let the program do anything while it keeps the handle, provided that whatever its edits (detach, splice_children, also if the iterator given to splice_children runs code of its own) take out and the places where they put something in are in other trees or behind the element. Then the element stays in its tree at its place, with the same content, the same text in front of it and the same text_range(). If it is a node, a text() taken of it before still has the right length and shows the text of the node, and its slices a..b show the bytes a..b of that text; and == of texts kept of two such nodes says whether the texts of the nodes are equal. This includes edits that panic half-way and are caught.", "quantifier": "all reachable states, all handles, all histories of calls of any length (reading, navigating, cloning, dropping, editing) whose edits are behind the element or in other trees, all forms of range argument of slice", "why_tests_cant": "a history can be arbitrarily long, move the same elements again and again and panic in the middle of an edit; tests edit once and read once", "anchors": ["src/cursor.rs: SyntaxNode::detach, SyntaxNode::splice_children, NodeData::offset_mut, NodeData::text_range, NodeData::respine", "src/syntax_text.rs: SyntaxText::slice, tokens_with_ranges, Display", "src/sll.rs: adjust"]}
{"id": "C88", "title": "Pointers survive any number of edits behind the node", "statement": "Make a SyntaxNodePtr of a node of an immutable tree, make a mutable copy of the tree and let the program do anything with it, provided that whatever its edits take out and the places where they put something in are in other trees or behind the copy of the node. Then the pointer resolves, in the immutable tree made of green() of the top node after all the edits (SyntaxNode::new_root), to the node in the same place, with the same content. The range of the node must not be empty, and the node must not be inside a node of its own kind: otherwise the pointer can resolve to that node, once everything behind the inner one is gone.", "quantifier": "all immutable trees and nodes in them, all reachable states with a mutable copy of the tree, all histories of calls of any length whose edits are behind the copy or in other trees, all Language mappings of kinds", "why_tests_cant": "a history can be arbitrarily long and panic in the middle of an edit, and which node a pointer finds depends on the lengths of all nodes around it; tests make one edit", "anchors": ["src/ast.rs: SyntaxNodePtr::new, SyntaxNodePtr::try_to_node", "src/cursor.rs: SyntaxNode::detach, SyntaxNode::splice_children, SyntaxNode::clone_for_update, SyntaxNode::green, SyntaxNode::child_or_token_at_range"]}

# Formal model of rowan (Lean 4)

The code modelled is `/repo` (rowan 0.16.1 at the pinned commit). Everything lives in
`/verif/lean/Verif/`; `Verif.lean` imports every module. Core Lean only, no Mathlib.

* `Verif/*.lean` — the model (functions citing file and lines) and helper lemmas (`*Lemmas.lean` and others).
* `Verif/Spec/*.lean` — the vocabulary of the statements. It knows plain trees, lists, strings and positions.
* `Verif/Props/*.lean` — the theorems `Cnn_…`, each with a concrete case meeting its hypotheses beside it.
* `MANIFEST.json` — which theorems belong to which property. `seeded/LOG.jsonl` — wrong programs tried.

## Reading order

1. `Spec/Tree.lean`: a plain tree is a token (kind, text) or a node (kind, children). Every statement about trees is
   about these.
2. The statements in `Props/*.lean`.
3. `Spec/*.lean` for the words used there; then the model.

## Layers of the model

| layer | files | code modelled |
|---|---|---|
| outcomes | `Res.lean`, `HeapState.lean` | a call returns, panics, aborts, has undefined behaviour, or runs out of a loop bound: five different outcomes |
| text | `Text.lean` | `&str` as a list of Unicode scalar values with UTF-8 byte offsets; the part of the `text-size` crate that rowan uses |
| green | `Green.lean`, `Props/Green32.lean` | `src/green/{node,token,element}.rs`: values with an address; 32-bit lengths in `Green32` |
| builder | `Builder.lean` | `src/green/{builder,node_cache}.rs` with explicit addresses and an arbitrary hash function |
| example programs | `BProg.lean`, `SExpr.lean`, `SExprEval.lean`, `Math.lean`, `MathPrint.lean` | `examples/s_expressions.rs`, `examples/math.rs`: client code that calls the builder and reads trees |
| cursor, snapshots | `Cursor.lean`, `Position.lean`, `Debug.lean` | read-only part of `src/cursor.rs`; a handle is a value (parent chain, index, offset, green) |
| text view | `SyntaxText.lean` | `src/syntax_text.rs` |
| 32-bit offsets | `Text32.lean` | the functions of the three layers above that compute with offsets, with 32-bit words, with and without overflow checks |
| typed API, AST | `Api.lean`, `Typed.lean`, `Ast.lean` | `src/api.rs`, `src/ast.rs` for an arbitrary `Language` |
| serde, utilities | `Serde.lean` | `src/serde_impls.rs`, `src/utility_types.rs` |
| formatting and serializing | `Fmt.lean` | `Display`, `Debug` and `Serialize` again, into writers and serializers that can fail, with formatting options |
| sibling list | `Sll.lean` | `src/sll.rs` on a pointer heap |
| cursor heap | `HeapState.lean`, `Heap.lean`, `HeapApi.lean` | `src/cursor.rs` again: `NodeData` objects in a heap with reference counts, intrusive lists, `detach`, `attach_child`, `respine`, `free`, owned green references |
| overflow checks | `HeapChecked.lean` | the edits of the cursor heap with the checks in `GreenNode::new` |
| borrows | `HeapBorrow.lean`, `Spec/Borrow.lean` | references returned by `text()` and `green()` |
| programs | `HeapApi.lean`, `Spec/History.lean`, `Program.lean`, `Traverse.lean`, `EditProg.lean`, `EditWalk.lean`, `DetachAll.lean`, `EditLaws.lean` | what safe code can do with handles; traversals and searches of `src/cursor.rs`, `src/ast.rs`, `src/syntax_text.rs` as programs over the heap |
| reference counting | `Arc.lean` | one `Arc` counter under release/acquire memory semantics, any number of threads |
| allocation | `ThinArc.lean`, `Spec/Layout.lean` | size arithmetic, construction and pointer conversions of `ThinArc` in 64-bit arithmetic on byte-addressed memory |
| green objects in memory | `GreenApi.lean` | `GreenToken::new`, `GreenNode::new` for arbitrary iterators on that memory; UTF-8; the `Children` iterator |
| green memory | `GreenMem.lean` | the graph of green allocations shared by threads: counts, destructors, borrows |

How the layers are tied together:

* snapshots → plain trees: C11 (a handle obtained by navigation is the handle of a position).
* heap → snapshots: C49 (any reading program gives the same result on the heap as on a snapshot), hence C50 transfers
  the theorems about snapshots to live trees after any history.
* heap edits → plain trees: C36 (`Conf.Run`: what a handle denotes after a history is computed on plain trees).
* heap, whole programs → plain trees: C61 (any editing program, panics included, gives the same result on the heap as on a forest of plain
  trees).
* allocation → green values: C53 (what `GreenNode::new` leaves in memory is `GNode.new`).
* sequentially consistent counters → the memory orderings of the code: C65 (`C65_same`: the memory states of C51 are
  exactly those reachable under release/acquire semantics).

## What "reachable" means

`HReach s gs hs lk` (in `HeapApi.lean`): a program over the cursor API can be in a state with heap `s`, holding the green
elements `gs` and the handles `hs`, having lost the handles `lk` without dropping them. The program may do anything safe
Rust allows: build green elements, make roots (mutable or not), clone, drop, forget, navigate, read, copy, detach,
splice (also with lazy iterators), and catch panics. `Call.Ready` states what the borrow checker guarantees: handles used are held, handles passed
by value are gone, node functions are called on nodes. One thing is left out of `HReach`: what follows a caught
out-of-range panic of `splice_children` if the index is 2^32 or more, or if the panic leaves the element that could not
be inserted behind (`HSt.Stray`). The latter
happens if another handle on the element, or inside it, exists; in particular if the element is above the node it was
to be inserted into. `C38_after_panic` says what those states look like and that all others are in `HReach`; undefined
behaviour can follow (`C38_fails`, `C38_wide_fails`). A splice that puts an element below itself with an index in range never returns
(`C40_cyclic_never_returns`).

`HSt.Room n`: every reference count is at least `n` below the limit. `Room` hypotheses exclude the abort at `u32::MAX`;
C42 shows that they follow from the number of handles the program holds.

Loops that do not terminate structurally have a step bound; `diverge` is the outcome when it is used up. It is shown never
to occur, or (C40) to occur for every bound: `slack` in the state is an arbitrary addition to all bounds.

## Plan per property: what is modelled and how it is proved

| property | model | method |
|---|---|---|
| C01 lossless green trees, C02 green edits, C03 structural equality | `Green.lean` | structural induction over green trees built by the API (`Made`) |
| C04 32-bit arithmetic | `Props/Green32.lean`, both build modes of `u32` addition | induction; exact below 2^32, checked build rejects above, wrapping build is wrong above |
| C05 builder round trip, C06 checkpoints, C09 panics, C10 unclosed nodes | `Builder.lean` | invariant over operation sequences; refinement to a builder without cache (`Spec/Builder.lean`). C10 is false of the code: counterexample and exact acceptance condition |
| C07 cache is transparent, C08 cache deduplicates | `Builder.lean`, arbitrary hash function | the same refinement; invariant of the cache over all histories of builders sharing it |
| C11 ranges, C12 navigation, C13 child iterators, C16 ancestors and siblings | `Cursor.lean` | handles reachable by navigation are the canonical handles of (root, path); each function characterised on paths |
| C14 preorder, C15 skip_subtree | `Cursor.lean` | simulation of the state machine of the iterator by the depth-first walk |
| C17 token_at_offset, C18 covering_element, C19 child_at_range | `Position.lean` | induction over the subtree; binary search through its contract, and the algorithm of the standard library is shown to meet it |
| C20, C21 first/last/next/previous token | `Position.lean` | false of the code for nodes without children: counterexamples; exact result for all trees, and exactly when it is the right one; the property where every node has a child |
| C22 replace, C23 copies, C24 identity | `Cursor.lean` | substitution on plain trees; coherence of addresses (proved of builder trees) plus disjointness of non-empty ranges |
| C25 Debug, C48 Display | `Debug.lean` | balance of the walk; UTF-8 width at most 4 |
| C26–C29 text | `SyntaxText.lean` | lists of chunks against byte slices of the whole text |
| C30 pointers, C31 AST helpers | `Ast.lean` | descent by `child_at_range`. C30 is false of the code for empty nodes: counterexample; `Props/AstExact.lean` says exactly which pointers resolve, empty ranges included |
| C32 sibling list | `Sll.lean` | refinement of the ring in the heap to a sorted list |
| C33 detach, C34 splice, C35 iterating while detaching, C36 handles follow, C37 immutable trees | cursor heap | one global invariant (`HeapInv.lean`), preserved by every call; every live object abstracted to (root, path); every call specified on the abstraction (`HeapView.lean`). C34, C35 are false of the code: counterexamples, exact behaviour for all ranges, and the property for at most one child |
| C38 memory safety, C39 no leaks, C40 cyclic attachment | cursor heap | the same invariant. All three false of the code: counterexamples, and theorems for all other histories |
| C41 freeing exactly once, C42 counters | `Arc.lean`, cursor heap | invariant over a transition system with views, all interleavings, any number of threads |
| C43 allocation size, C44 construction | `ThinArc.lean` | bit arithmetic on 64-bit words; memory as a map from byte offsets to typed values |
| C45 TokenAtOffset, C46 serialization | `Serde.lean` | direct; decoding of the serialized form recovers the tree |
| C47 by_kind on a started iterator | `Cursor.lean` | false of the code: counterexample and exact behaviour |
| C49 reading programs | `Program.lean` | simulation between heap and snapshot, for arbitrary programs (trees of calls) |
| C50 traversals on live trees | `Traverse.lean` | each traversal is a program; its result on snapshots by the theorems above, on the heap by C49 |
| C51 green memory | `GreenMem.lean` | invariant (count = references + parents + running destructors); acyclicity by age; measure for destructors |
| C52 typed kinds | `Api.lean` | reduction to the untyped functions with the composed matcher; arbitrary language |
| C53 green objects in memory, green children iterator | `GreenApi.lean` | C44 plus a simulation of the closure in `GreenNode::new`; iterator as window into a list |
| C54 borrowed green data | `HeapBorrow.lean` | what every call keeps (`Kept`) extended with: the green object of a token whose handle is kept never changes; ownership by C38 |
| C55 lazy iterators in `splice_children` | `HeapApi.lean` (`Call.attach`) | one round of the insertion loop is a call of its own, between which the program can do anything; induction over the run |
| C56 32-bit offsets | `Text32.lean` | every sum is bounded by the length of the text; sums of arguments that wrap are caught by the assertions. Equality with the unbounded model, by the inductions of that model |
| C57 edits in builds with overflow checks | `HeapChecked.lean` | every length that is computed is at most the sum of the lengths of all trees, which no step of an edit increases; so the checks never fail, by induction along the edit |
| C58 S-expression parser of the tutorial | `SExpr.lean` | parser as a program over builder calls (`BProg.lean`) that is run by C05's builder; the calls reduce to operations on stacks of plain trees; induction on the loop bound with a grammar as inductive predicates; the grammar is shown unambiguous by rebuilding the tree from its tokens |
| C59 parser of arithmetic expressions | `Math.lean` | as C58, with checkpoints; the loop of `handle_operation` is treated once, for any operand parser that is sound and complete for its grammar; completeness gives that the grammar is unambiguous, and the value of sums of products |
| C60 evaluation of S-expressions | `SExprEval.lean` | a reading program (C49) on the heap; by induction over the fuel it computes an outcome related to the tree by the big-step relation `Evaluates`, with the same handles afterwards; the relation is deterministic and agrees with the value of expressions over the integers |
| C61 editing programs see only forests | `EditProg.lean`, `Spec/Forest.lean` | programs as trees of requests whose continuations get the results, panics included; run on the heap (`exec`) and on a forest (`run`); `==` is known for one and the same place and for places of different content or range; a step that panics leaves the forest as far as it was edited, or is `broken` (C38); simulation relation `Tracks`; each request is matched with the theorems behind C36 (`Req.Matches`), then induction over the program; the abort bound comes from C42 |
| C62 the debug dump determines the tree | `Debug.lean`, `Spec/Dump.lean` | the dump is the rows of all positions in document order (C25); lines are split at line breaks, a list of indented lines determines the shape (`dump_inj`), and a line determines kind, range and shown text; false for tokens of 25 bytes and more, with a counterexample |
| C63 printing the tree of an expression | `MathPrint.lean`, `Spec/MathPrint.lean` | `print` as a reading program; by induction over the tree its outcome is a function of the tree (`outT`), equal to the specification by positions; `dump_inj` for injectivity; with C59 for trees of the parser |
| C64 searching by kind with a predicate that uses the library | `HeapReenter.lean`, `Spec/Reenter.lean` | the predicate is a relation between states of the program (`Matcher`), the iteration over the borrowed slice a relation that fails when the green node is not held any more; histories that do not edit at or below a node keep its green pointer and what lies between it and a handle below it, whatever they edit elsewhere (`HeapStill.lean`, `HeapStill2.lean`, `Run.calm`); false in general, with two counterexamples |
| C65 no data races in green memory | `GreenWeak.lean`, `Spec/GreenWeak.lean` | C51's steps with a view per thread and per message of each counter; invariant: whoever brings a counter to 0 will know of every access (`Carried`), whoever can get at an allocation knows of its exclusive accesses; refinement to C51 in both directions; counterexamples for weaker orderings |
| C66 documented running times | `Cost.lean`, `Spec/Cost.lean` | the functions again with counters, shown to give the same results; induction over the loops; the fuel of `linkLoop` counts the rounds in mutable trees; counterexamples for `replace_with` and for mutable trees |
| C67 errors of writers and serializers | `Fmt.lean`, `Spec/Fmt.lean` | the writing functions as computations over an arbitrary sink with state; each is shown to feed a fixed list of pieces to the sink, by induction over the walk; the lists are those of C25, C26, C46 and C48 |
| C68 formatting options | `Fmt.lean`, `Spec/Fmt.lean` | `Formatter::pad` is modelled; the exact output for every option; counterexamples |
| C69 walks over trees that are edited | `EditWalk.lean`, `Spec/EditWalk.lean` | the iterators as programs of C61; one call of `next` computes the event that follows in the walk of the current tree (`evNext`); loops by induction over the tree (`PruneAt`) and over the walk (`run_each_calm`); C61 carries the runs to the heap |
| C70 the order of detaching | `DetachAll.lean`, `Spec/Detach.lean` | two cuts commute up to the numbers of trees (`cuts_apart`, `cutAs_comm`), hence permutations (`cuts_perm`); the heap does not know the numbers (`Tracks.like`); content and positions by induction over the cuts (`cuts_sub`, `cuts_shift`) |
| C71 the functions of the typed API | `Typed.lean`, `Spec/Typed.lean` | typed handles are a type of their own; `TReach` has one constructor for each function that returns a handle; induction over the calls shows that the wrapped handle is reachable in the sense of C11; each function is then stated on positions and reduced to C11–C24 |
| C72 laws of moving elements | `EditLaws.lean`, `Spec/EditLaws.lean` | the laws are equations between runs on forests, up to the numbers of trees on which a handle is held (`Twin`, which `Tracks` respects); join after cut and cut after join are inverse, joins at different nodes commute; C61 carries the equations over to the heap |
| C73 trees without a handle of the program | `Spec/Frame.lean` (no new code) | a frame rule for runs on forests, by induction over programs and `splice_children`'s list (`run_aside`); for what another program sees afterwards, a simulation between forests that differ in the numbers of trees (`run_pair`); C61 carries both over to the heap |
| C74 pointers after replacements | `Spec/PtrStable.lean` (no new code) | lengths of what precedes a position in a tree with a subtree substituted (induction over paths); an ancestor that would take the pointer over is either longer than the node or matched before the replacement, against C30_resolve |
| C75 stack of destructors | `Spec/Nest.lean`, over the destructor stacks of `GreenMem.lean` | invariant over interleavings: the frames of a thread are linked by child relations; attained: induction along the path, running the destructors of earlier children to their end and counting owners to see that they do not touch the path |
| C76 pointers after insertions and removals | `Spec/PtrSplice.lean` (no new code) | as C74, with the lengths of what precedes a position among spliced children and the renumbering of the later ones |
| C77 work of building | `BuildCost.lean`: the cache with counters; `Spec/BuildCost.lean` | counters do not change results; amortised invariant over runs (entries moved by a doubling table), sizes of cached trees bounded by the calls through C07; worst case by induction over the calls of a chain |
| C78 work of walking | `WalkCost.lean`: searches for nodes with counters; `Spec/WalkCost.lean` | counters do not change results; the cost of a call is a function of the position of its event; structural induction on the walk of C15 for the sum; invariant of the child iterator |
| C79 ranges nest and tile | the cursor model; `Spec/Ranges.lean` (`Tiles`) | ranges are byte counts before a position (C11); positions are nested or one is earlier; structural induction over the walk of C14 |
| C80 | `GreenPanic.lean`: `from_header_and_iter` taken apart into its calls of the iterator, between which anything of `GreenMem.lean` may happen; an abandoned buffer is an allocation whose reference nobody has | invariant: the counters stay exact (that of C51), names of references are unique, and the references that belong to nobody are exactly those in a running construction or in an abandoned buffer; each way to end a construction is then a `newNode` of C51 |
| C81 | `detach` and insertion by `splice_children` in the heap model (Heap.lean, HeapApi.lean), seen through the text of the tree and `text_range` of every live handle (Spec/TextEdit.lean) | positions and contents after an edit from C33 and the views of C36; the lengths by induction on positions for `Tree.insertAt` (TextEditLemmas.lean), for `removeAt` by putting the element back |
| C82 | `StaleText.lean`: `to_string` of a text whose range is arbitrary, as a reading program on the heap | false of the code; the chunks for a range that need not lie in the node's, by clipping the range to the node's (StaleTextLemmas.lean) and C26's induction over the tokens; then C50's transfer to the heap; witnesses by C33 on concrete states |
| C83 | `splice_children` in the heap model with at most one child removed and several detached trees put in, seen through the text of the tree and `text_range` of every live handle (Spec/TextEdit.lean) | where every handle is afterwards by induction on the list of trees put in, on views (TextSpliceLemmas.lean); lengths from the laws of `Tree.Spliced` (C76); then C36's agreement of the heap with views |
| C84 | `TextEq.lean`: `==` of two texts with arbitrary ranges, with its two walks and the tokens it holds, as a reading program on the heap | false of the code; the program refines the comparison of lists of C29 with two walks held at once (TextEqLemmas.lean), then C50's transfer to the heap; the answer for any ranges by induction over the loop of `zip_texts`; the counterexample by running the model on a concrete state |
| C85 | `TextRead.lean`: `contains_char`, `find_char`, `char_at` and `== str` of a text with an arbitrary range, as reading programs on the heap | the programs refine the functions on values (C28, C29), whose proofs only use the chunks; the chunks for any range from C82; then C50's transfer to the heap |
| C86 | `TextSlice.lean`: `slice` of a text with an arbitrary range, and `t.slice(..).to_string()`, as reading programs on the heap | false of the code; the program clones the handle and computes the range of C27, the chunks for any range from C82, C50's transfer to the heap; the part that holds by arithmetic of ranges and slices of slices; the counterexample by running the model on a concrete state |
| C87 | `Spec/TextKeep.lean`: a call edits only behind an element or in other trees; histories as in C36 | one lemma per change of the abstract view (cutting out an element, putting one in) that the position, the content and the text in front of an element survive and that positions and places behind it stay behind it; induction over the inserted elements, then over the history; C82 and C86 for the kept text |
| C88 | the histories and edits of C87; pointers as in C30 and C74 | C87 together with one more thing that its steps keep, the kinds of the nodes around the element; the outermost node with the kind and range of a pointer is what it resolves to (C74) |

Every property in `properties.jsonl` can be expressed in the model; none is "not applicable".

## Properties that are false of the code

Each is kept with its full statement, refuted by a concrete witness (a theorem), and accompanied by the strongest
variant that was found to hold.

1. `finish()` accepts a builder with open nodes and drops them silently (C10).
2. `first_token`, `last_token`, `next_token`, `prev_token` give up at a node without children (C20, C21).
3. A `SyntaxNodePtr` to a node with empty text may not resolve to a node of that range and kind (C30).
4. `splice_children(a..b, …)` deletes only the first child of the range; `for c in children { c.detach() }` stops after
   the first child: the iterator's next element is found through the detached one (C34, C35).
5. `splice_children` with an index out of range panics after the element was unhooked; with another handle on that
   element the green data it refers to have been freed (C38). Reading is then undefined behaviour; dropping is not.
   With an index of 2^32 or more, the index is cut to 32 bits (`index as u32`) before the siblings are renumbered; after
   the panic the siblings have wrong indices, even if the element was freed, and edits then free the wrong green data
   (`C38_wide_fails`). In a build with overflow checks an insertion that makes a text 2^32 bytes long panics halfway in
   the same way (`C57_overflow`, `C38_overflow_fails`).
6. `to_next_sibling[_or_token]` on the only handle of an immutable root forgets the handle: a leak (C39).
7. Attaching an element below itself is not rejected and never returns; with an index out of range it panics and leaves a
   cycle of cursor objects that is never freed (C40, C39).
8. `by_kind` on a started iterator yields the last element again (C47).
9. `first_child_by_kind`, `next_sibling_by_kind` and the like call the predicate while they borrow the children of a green
   node through a raw pointer. A predicate that edits the node (safe code: handles can be captured and edited through
   shared references) frees what is borrowed: use after free (C64).
10. `replace_with` is documented to take time proportional to the depth, but copies all children of every node above the
   element; `child_or_token_at_range` is documented to be logarithmic, but in a mutable tree making the handle goes through
   the later siblings that have objects (C66).
11. `Display` of nodes and of `SyntaxText` hands the formatter with its options to every token: `{:8}` pads each token to eight
   columns, `{:.1}` shows the first character of each token. Green nodes and tokens ignore the options (C68).
12. A loop over `preorder()` that detaches the element it enters goes on inside the element that was cut off and ends with it;
   `skip_subtree()` before the next element, if that was detached, panics (C69).
13. A `SyntaxText` of a mutable node keeps the range that the node had. After an edit in front of the node `to_string()` gives
   a part of the text, or panics inside a character, and `len()` is the old length (C82).
14. `==` of two such texts can say `true` for different texts, and `false` with the sides exchanged: when one side ends, the
   rest of the token taken from the other is forgotten (C84).
15. A slice of such a text is counted from the place where the node began. After an insertion in front of the node
   `t.slice(0..1)` can be empty although `t` is not (C86).

Further findings, stated in theorems or examples: handles of distinct empty siblings that share one green object are
equal (C24); `skip_subtree` before the first `next` on a root panics (C15); `index()` of a detached element keeps its old
value (C36); `child_or_token_at_range` may return an element that contains the range, not one that has it, and for
empty ranges depends on the binary search (C19); `replace_child` out of range returns an equal copy (C02); slicing a
`SyntaxText` inside a character panics only when the text is read (C27); typed pointers confuse raw kinds that the
language maps to one kind (C52); above 2^32 bytes a build without overflow checks computes wrong lengths (C04); the parser of `examples/math.rs` loses
the tokens after the expression (C59); the evaluator of `examples/s_expressions.rs` panics on `(/ -9223372036854775808 -1)`
(C60).

## Coverage by file

| file | modelled | not modelled |
|---|---|---|
| `green/token.rs` | `new`, `kind`, `text`, `text_len`, equality, hash, `Display`, `Debug`, `into_raw`/`from_raw`, `to_owned` | `Count` (instrumentation) |
| `green/node.rs` | all functions, `Children` | `Debug` of `GreenNode`, `Count`; `static_assert` taken as a fact about layouts |
| `green/element.rs` | `kind`, `text_len`, conversions | `Cow` conversions (they are `to_owned`) |
| `green/builder.rs`, `green/node_cache.rs` | all functions | `hashbrown::HashMap` as a list of entries; `FxHasher` as an arbitrary function; address reuse after a free is allowed |
| `arc.rs` | `Clone`, `Drop`, `drop_slow`, `get_mut`, `is_unique`, `from_raw`, `ThinArc`, `from_header_and_iter`, conversions, equality, hash | `PartialOrd`/`Ord`/`Debug` (unused by the public API), `Send`/`Sync` bounds |
| `cursor.rs` | all functions of nodes, tokens, elements and iterators | `Display for SyntaxElement` (dispatch), `Hash` (its key is modelled) |
| `sll.rs` | all functions | |
| `syntax_text.rs` | all functions | the private `zip_texts` is modelled by its loop |
| `api.rs` | typed kinds, matchers, every reading function and iterator (`Typed.lean`) | `detach` and `splice_children` are identified with the cursor function they call; `kind_from_raw` does not panic |
| `ast.rs` | all functions | `Debug`, `Hash` derives |
| `serde_impls.rs` | all functions, errors of the serializer | |
| `utility_types.rs` | `NodeOrToken`, `TokenAtOffset`, `WalkEvent` (as data), `Delta` (as integers) | `Display`, `Debug` derives |
| `cow_mut.rs` | as part of `Builder.lean` (owned or borrowed cache: the same value) | |
| `examples/s_expressions.rs` | lexer, parser, `eval`, `main` | printing; the crate `m_lexer` from its documentation; depth of recursion on the machine stack |
| `examples/math.rs` | parser, `kind_from_raw`, `print` | the glue in `main` (its tokens and its output are concrete cases of C59 and C63) |

## Simplifications

* Text sizes, indices and offsets are natural numbers (`u32` in the code), except in `Green32.lean`, `Text32.lean`, `HeapChecked.lean` (lengths of texts), for the cursor's
  reference count, and in `Arc.lean`/`ThinArc.lean` (64-bit words). A tree with more than 2^32 bytes of text or children
  is outside the model elsewhere. The index argument of `splice_children` is arbitrary, and cut to 32 bits where the code
  does it (`HSt.asU32`).
* Green values in the heap model are values with an address; a green address is never used again there. In the
  builder model addresses of dead green objects can be used again.
* Cursor objects: addresses are not reused after a free. References to green data held by cursors (`owned`) are those of
  the top elements, as in the code; the program's own references are not counted for keeping cursors' data alive.
* `splice_children` with a list of elements is one call (`Call.splice`); with an iterator that runs code of its own it is
  `Call.splice` with nothing to insert, then code and `Call.attach` (one round of the insertion loop) alternately. `attach`
  is then a step that can happen at any time, with any index: more states are reachable than in the code.
* Closures passed by the user (matchers, `cast`, `kind_from_raw`, hash functions) are pure total functions, except for
  matchers in C64, which can do whatever a program can do.
* Reading programs (C49, C50): after a panic the handles are still held; the drops during unwinding are a separate step (`C49_unwind`).
* `GreenMem.lean`, `GreenWeak.lean`: steps interleave atomically (the orderings of the counters are in `GreenWeak.lean`,
  where the decrement and the load after it are separate steps); an abort is immediate; allocations are named by creation order; the
  depth of nested destructors is counted in frames (C75), not in bytes of the machine stack.
* `Fmt.lean`: `write_char` is `write_str` with one character; the `Debug` of kinds, ranges and strings fails only if the writer
  does; a serializer serializes a value when it is given the value, once.
* `Cost.lean` counts comparisons, rounds, handles made, green nodes made and children copied; what one of them costs on a machine
  is not modelled. Making a handle in an immutable tree counts as one step.
* The allocator succeeds, or the process is gone.
* Modelled from documentation: `text-size`, `hashbrown`, `std::iter`, slice iterators, UTF-8 encoding and decoding
  (Lean's), `[T]::binary_search_by` (any function meeting the contract; the current algorithm is one instance).

## Testing the theorems

`seeded/LOG.jsonl` has one line per wrong program tried: the definition edited in a scratch copy, the edit, the claim it breaks, the
theorems that failed, and the theorems that were tightened because the edit survived or only failed in a helper.

Lines whose edit starts with "mechanical edit" come from a script that flips conditions and constants. Of the 83 that broke
the build, 16 were judged by reading to break a claim, 12 only spoil fuel or step counts of the model, and 55 were not judged. Only
the first declaration that failed was recorded; often it is a helper lemma. They show that a proof depends on the definition, not that a property theorem became false, and are weaker evidence than the
other lines. 77 further edits of this batch did not compile and are not listed. Two survived: `enterBody`, after which
`C69_enter_loses` was tightened, and the default of `GWeak.isLast` for an object that does not exist, which was left.

## Trusted base

* Lean's kernel (4.33.0). No `sorry`, no `native_decide`, no `bv_decide`, no axioms of our own.
* Axioms: at most `propext`, `Classical.choice`, `Quot.sound` (the table below is printed by `#print axioms`).
* The tie between model and code is reading: each definition cites the lines it models and says where it simplifies.
* Not covered by any theorem: that rustc implements Rust's semantics as read here; the assumptions under
  "Simplifications".

### Axioms per theorem

All theorems named in `MANIFEST.json` depend on exactly `propext`, `Classical.choice`, `Quot.sound`, except:

* `propext`: `C67_feed`, `C67_prefix`, `C67_green`, `C61_init`, `C03_structural_eq_token`, `C15_early_skip_panics`, `C31_ptr_resolution`, `C45_token_at_offset`, `Math.C59_lossless_fails`, `SExpr.C60_some`, `SExpr.C60_range`
* `propext`, `Quot.sound`: `C69_prune_clean`, `C67_token`, `C68_token`, `C66_child_at_range_partial`, `C66_replace_partial`, `C66_replace_token_partial`, `C66_replace_bound`, `C65_release_needed`, `C65_acquire_needed`, `C03_eq_hash`, `C04_exact_below`, `C04_checked_rejects`, `C04_wrapping_is_wrong`, `C08_small_trees`, `C11_contents`, `C13_in_place`, `C16_ancestors`, `C16_token_ancestors`, `C23_clone_subtree`, `C24_empty_counterexample`, `C30_mutable_panics`, `C43_bounds`, `GMem.C51_at`, `GMem.C51_new_token`, `GMem.C51_clone`, `C53_children`, `C53_children_consume`, `C55_list`, `C56_ranges`, `SExpr.C58_lex`, `SExpr.C58_unique`
* none: `C31_cast_ptr`

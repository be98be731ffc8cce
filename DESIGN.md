# Formal model of Yet-Another-Rust-Parser: design

Everything is in Lean 4 (4.33.0) under `lean/Verif/`. The model is written function by function
from the Rust sources in `/repo`; every definition of the model carries a comment with file and lines.
Definitions without such a comment are specification: they say what a property means.

## Layout

| module | content |
|---|---|
| `Verif/Common/OSet`, `Common/Ord` | `BTreeSet`/`BTreeMap` models, derived orders |
| **tokenizer, model** | |
| `Tok/Nfa` | `tokenizer/src/nfa.rs` |
| `Tok/Heap` | `tokenizer/src/nfa.rs` again, with nodes at memory addresses, locks and an allocator |
| `Tok/Ptr` | `tokenizer/src/dfa.rs` and `DFATokenizer::new` again, with nodes at memory addresses |
| `Tok/Dfa` | `tokenizer/src/dfa.rs` and the table look-ups of `tokenizer/src/tokenizer.rs` |
| `Tok/Builder` | `TokenizerBuilder` |
| `Tok/Iter` | `tokenizer/src/tokenizer/iter.rs` on lists |
| `Tok/Source` | the same on arbitrary iterators |
| `Tok/MapState` | the same with a stateful closure `map` |
| `Tok/Gen` | the macro `tokenizer!` (`tokenizer_generator/src/lib.rs`) |
| **tokenizer, specification** | |
| `Tok/Hir` | regexes, their regular language, the class `Hir.faithful` |
| `Tok/NfaSem`, `Tok/DfaSem` | meaning of automata and tables |
| `Tok/Spec` | vocabulary: accepted strings, longest match, … |
| `Tok/Ahead` | specification: how far texts can go behind a match without a longer one, and a check of the tables (C90) |
| `Tok/Code` | the language the builder really gives to a regex |
| `Tok/Live` | texts that can be completed to a token |
| `Tok/Size` | number of nodes of the automaton of a regex; texts told apart by a continuation |
| **parser, model** | |
| `Par/Syntax` | `parser/src/syntax.rs` |
| `Par/Tables` | `parser/src/parser.rs` |
| `Par/Parse` | `parser/src/iter.rs` |
| `Par/Gen` | the macro `parser!` (`parser_generator/src/lib.rs`) |
| `Par/Effects` | `parser/src/iter.rs` with callbacks that have side effects and may panic; trees played with effects |
| `Par/Shared` | `parser/src/iter.rs` with a source and callbacks that share a world; trees gone through with both |
| `Par/Source`, `Par/Pipe` | `parse` on arbitrary iterators, and on the tokenizer's |
| **parser, specification** | |
| `Par/Grammar` | grammars, derivations, sentences |
| `Par/LrSpec` | valid LR(1) items, canonical tables |
| `Par/Trees` | derivation trees and their evaluation |
| `Par/Machine` | a table-free machine with error recovery |
| `Par/Rightmost` | rightmost derivations, handles, viable prefixes |
| `Par/Contract` | promises about the arguments of callbacks |
| `Par/Embed` | grammars that are the same but for names, places and rules out of reach |
| `Par/Stmt` | lists of statements with `error`, segments, chunks and their evaluation |
| `Par/Chosen` | derivation trees with preferred reductions only |
| `Par/Ops` | grammars of expressions with operators, trees grouped to the right |
| `Par/Prec` | grammars of expressions with levels, grouped expressions, writing with brackets |
| `Par/Height` | the stack that building a tree takes, nesting, grammars that nest |
| `Par/Pump` | repeated parts, derivations with no non-terminal below itself |
| `Par/Finish` | where a place in a sentence comes from, short ends |
| `Par/Report` | error rules that only report; the rules without `error` |
| `Par/LL1` | the textbook LL(1) condition and the table check with nullable, FIRST and FOLLOW sets |
| `Par/Family` | the textbook LR(0), SLR(1), LALR(1) and LR(1) conditions and the check of an automaton |
| `Par/Plug`, `Par/Pieces` | one grammar in place of a terminal of another, values of pieces of the input |
| `Par/Eq` | `==` of parsers and syntaxes (derived `PartialEq`, `Rule::eq`; equality of hash maps and sets as documented in the standard library) |
| `Par/Inline` | specification: writing out a helper non-terminal in all rules, with callbacks (C81) |
| `Par/Settled`, `Par/Tidy` | specification: grammars whose error recovery is quadratic, and a check of the rules for it (C83) |
| `Par/Trace` | specification: grammars whose error recovery loses no token, and a check of the rules for it (C85) |
| `Par/Keep` | specification: phrases that error recovery keeps, and a check of the rules for it (C86) |
| `Par/Lasting` | specification: phrases that are never given up, and a check of the rules for it (C88) |
| `Par/Stop` | specification: `error` followed by a terminal, the terminals that end an `error` behind given symbols, and a check of the rules (C89) |
| `Par/Damage` | specification: sentences in which parts are replaced by wrong tokens (C91) |
| `Tok/Layout` | specification: the parts of a text between blanks, words one behind the other (C92) |
| `Par/Like` | specification: tokens, values, callbacks and parses that correspond (C96) |
| `Par/TestErr` | specification: values without error nodes, what is written for them, values with error nodes (C98) |
| `Par/Automata` | specification: finite automata, what they compute, the two ways to write them as rules (C99) |
| `Tok/Agree` | automata that agree on short words (C101) |
| `Tok/Kleene` | regexes for finite automata (C104) |
| `Par/Moves` | specification and lemmas: reading and reducing without states; LR(1) exactly if the next terminal decides the next move |
| `Tok/Smooth` | texts at which a hash collision could do harm, and a check |
| `Tok/Rewrite` | ways of writing a regex that change nothing, and a safe way of writing it |
| `Tok/Words` | the tokenizers of tokenizer_generator/tests and a tokenizer written by hand |
| `Par/TestMain` | the program of parser_generator/tests/main.rs and what it is to return |
| `Par/PartProof` | grammars whose rules are among those of another one |
| `Par/Used`, `Par/UsedProof` | tables without an entry (spec); every entry is needed |
| `Replay/Tok`, `Replay/Par` (and the end of `Tok/Nfa`) | the unit tests of the repository on the model |
| **macro inputs** | |
| `Macro/Syn`, `Macro/Read` | the `Parse` implementations of `parser_generator/src/lib.rs` and `tokenizer_generator/src/lib.rs`, over token trees |
| `Macro/Text` | specification: grammars of the macro inputs |
| **example program** | |
| `Calc/Model` | `example/src/main.rs`, a calculator |
| `Calc/Spec` | expressions, numerals, written texts |
| **proofs** | |
| `Tok/*Proof*`, `Tok/MinWeak`, `Tok/NfaMain`, `Tok/Heap{Build,All,Dfa}`, `Tok/Ptr{Proof,Sub,Min,New,All}`, `Par/*Proof`, `Par/Stmt{Run,Main,Cover}`, `Par/Ops{Proof,Table,Along,Rot}`, `Par/Prec{Table,Proof}`, `Par/RmGram`, `Par/Rec*`, `Par/EffectsValues`, `Par/EffectsPlay`, `Par/Shared{Proof,Round,Inv,All}`, `Par/Embed{Proof,Mach,Aug}`, `Macro/ReadProof`, `Calc/{Table,Proof,Number,Lex}` | helper lemmas |
| `Props/*` | the property theorems with examples that meet their hypotheses |

Property theorems are named `cNN_…`, where `CNN` is the property. `MANIFEST.json` lists them.

## Modelling conventions

* `usize`/`u32` are `Nat` (no arithmetic here can overflow: code points are at most 0x110000,
  indices are bounded by memory).
* Node pointers (`*const Node`, `Arc`/`Weak`) are modelled by the index of the node in the `node` vector.
  Pointer equality becomes index equality. Pointer *order* is used by the code only to order `BTreeSet`s
  of nodes whose order is not observable. For the nodes of `nfa.rs` this is not taken for granted: `Tok/Heap` models addresses,
  allocation, freeing, locks and dereferencing, and C56 proves that `build` has the same outcomes; for the nodes of `dfa.rs`, `Tok/Ptr` and C58 do the same. What raw pointers show outside
  of live nodes is arbitrary there. The heap after an error return is not modelled.
* `BTreeSet`/`BTreeMap` are strictly sorted lists. `HashMap`/`HashSet` are lists; wherever the code
  iterates over one, or numbers its entries, the iteration order is an explicit oracle parameter
  (`Seeds`, …) and theorems quantify over all oracles that return permutations (`Fair`).
* `CharRange` has `Eq`/`Ord` by `start` but a derived `Hash` over `start` and `end`. A `HashMap` with such
  keys may or may not find a key that is `Eq` but hashes differently (hashbrown compares 7 tag bits and
  then calls `eq`). The model has an oracle `collide` for exactly that; it may depend on the
  round, the set and the number of nodes entered, since each table has its own random state and tables grow, and it may hide the same key. `Calm` says that no such collision
  happened in a given run; theorems that need it say so; C08 proves that it cannot be dropped, and C77
  describes the patterns for which it always holds.
* Loops become recursion with fuel; fuel exhaustion is a separate outcome that is proved unreachable
  (that proof is the termination proof). `parse` may really run for ever: `run n` is `n` rounds of its loop,
  "ends" means "for some n", "runs for ever" means "goes on for all n".
* A panic is an explicit outcome.
* User callbacks are pure total functions, except in `Par/Effects` (C54, C55) and `Par/Shared` (C57), where they get and
  change a world outside and may panic; in `Par/Shared` the source of the tokens is part of that world. Mutation of children through `&mut` inside a callback is invisible afterwards because the children are dropped. Tokens
  do not change (no interior mutability in them).

## Trusted base

* Lean's kernel. Axioms: at most `propext`, `Classical.choice`, `Quot.sound`; `AXIOMS.md` lists them for each property
  theorem. No axioms are added, there is no `sorry`, `native_decide` or `bv_decide`. Mathlib is not used.
* The reading of the Rust code recorded in the comments of the model.
* `regex_syntax` (parsing of a pattern string into a HIR, and the HIR invariants: class ranges are sorted and
  disjoint; `Concat` and `Alternation` are not empty; `{n,m}` has n ≤ m) is outside the model: patterns enter as HIR.
* `std` collections behave as described above.

The code cannot be run here, but its unit tests carry expected values written down by its authors: automata, minimised tables, warnings,
closures, gotos, LR tables, tokens, parse results. `Replay/*` computes all of them with the model, and they agree (also in the ends of
ranges, in the extra entries of the tables and in the error rules, which the comparisons of the tests ignore). These examples are tests of the model, not properties.

Modelled: all of `tokenizer/src/{nfa,dfa,tokenizer,tokenizer/iter}.rs` and `CharRange` of `tokenizer/src/lib.rs`; all of
`parser/src/{syntax,parser,iter}.rs`; the patterns, rules and callbacks of `example/src/main.rs`; of the two macro crates the `Parse` implementations and the translation
of the parsed input into tables and callbacks.

Not modelled: `syn`'s parsers for Rust's own syntax (parameters of the model; its primitives for single tokens, groups and lists are
modelled as documented), groups without delimiters, error messages of the macros, `quote` (hygiene, type checking of the generated code),
other `Debug`/`Display` output than that of `CharRange` and `ParseError` (C109, C110), `eprintln!`, timing, memory exhaustion, stack overflow (also in recursive `Drop`), Rust's
aliasing rules for references made from raw pointers (that they lead to live nodes: C56, C58), the derive of `EnumIndex` (any function from
tokens to numbers is allowed), input and output of the example program.

## How each property is proved

| id | model | proof |
|---|---|---|
| C01 | NFA construction, determinisation, minimisation | induction on the regex with path-composition lemmas (superset direction), then C07, C08 |
| C02 | same | exactness under the syntactic guard `Hir.faithful`; counterexamples outside it |
| C03 | NFA construction as `Except` | induction on the regex |
| C04, C05, C07 | subset construction | invariant of the work-list loop; exactness of range splitting |
| C06 | rows as sorted lists | invariant |
| C08, C09 | `minify` with hash oracles | partition refinement invariant; counterexample with a colliding oracle |
| C10-C17 | `next` as a function on (queue, source) | induction over the input |
| C18, C39 | table translation of the macro; seeds | bisimulation of minimised tables |
| C19 | composition of the above | corollary |
| C41 | NFA construction | the four languages between begin and end of a piece, by induction on the regex |
| C45 | `next` | every state of the tables leads to an accepting one, by induction on the regex |
| C20, C21 | `calc_null/first/closure/goto/all_goto` | fixpoint lemmas, fuel adequacy by counting; valid-item theorem |
| C22 | `calc_table` | fold invariant; how often a warning is given: the list of losing reductions has no repetitions (`Par/WarnTimes`) |
| C23, C29, C33, C34 | `parse` rounds | stack invariant over all rounds |
| C24, C30 | same | simulation of a derivation tree |
| C25 | same | corollary of determinism of the simulation; counterexample |
| C26-C28 | same | every viable prefix is continued; counting of rounds between two shifts |
| C31 | pulled-token counter | invariant; dependence on the pulled part only |
| C32 | order oracles | bisimulation of two parsers with canonical tables |
| C35 | concrete grammars, all inputs of a form | invariant of the endless run |
| C36 | the macro's renumbering of symbols | renaming of grammars, canonical tables are stable under it |
| C37, C40 | rule constructors, `Ord` of rules | direct |
| C38 | `new` | case analysis |
| C42 | `parse` rounds | simulation between the loop and the machine of `Par/Machine` |
| C43 | `new` | valid items are exactly the items of right sentential forms |
| C44 | the machine of C42 | quiet steps (no reading, no giving up) undo a rightmost derivation, so they end; nested induction on input positions for the others |
| C46 | `parse` rounds with a stateful source | the rounds agree with those on the list of answers |
| C47 | tokenizer as source | C46 and C41 |
| C48 | `parse` rounds | induction on the derivation trees of C33 and C23 |
| C49 | patterns and rules of the example | tables computed by the kernel for one seed and carried over to all by C32; then C30, C48, C27 for tokens, C41 and C47 for texts |
| C50 | `Parse` implementations | each parser function accepts exactly its grammar rule, by composition |
| C51 | `next` on a stateful source | agreement with the loop on the items read; C45 for endless calls; C46 for parsing |
| C52 | `parse` rounds | between two shifts the reductions above the topmost states depend only on these and the look-ahead, so they are boundedly many (C27, finitely many cases); potential argument on the stack height |
| C53 | `next` with a stateful closure | a call is a call on items paired with the answers; induction over the calls |
| C54 | `parse` rounds with effects | simulation by a parser without effects whose values record how they were made |
| C55 | `parse` rounds with effects | values paired with such records; C23, C24, C33 for the records; the calls are replayed with the effects |
| C56 | NFA construction in memory | every step keeps a one-to-one correspondence between the nodes in memory and the positions of the model without addresses (simulation); the subset construction commutes with such renamings, order of sets included |
| C57 | `parse` rounds with a source, in a shared world | for every `w` that begins with the items read: the rounds are those of the parser without effects on `w`, and going through the forest on its stack comes to where the parse is (invariant); C24, C25, C28, C52 for the parser without effects |
| C58 | DFA construction, `minify` and `DFATokenizer::new` in memory | the same kind of simulation, step by step; an order of the map by address is pulled back to an order by position and pushed forward again |
| C59 | `new` and `parse` of two grammars | derivations, valid items and runs of the machine of C42 carry over in both directions along the renaming (induction); C20, C22 and C42 on both sides |
| C60 | `next` | C10 says what a call does in terms of the items not yet consumed; induction on the tokens |
| C61 | the machine of C42 | invariant: the pending rules are those that can begin at some `error` on the stack; `c61_lost` is a run |
| C62 | the machine of C42 | the valid items of these grammars are computed (`Par/StmtProof`), then the machine is run symbol by symbol (`StmtRun`), segment by segment and chunk by chunk (`StmtMain`) |
| C63 | `parse`, tables with conflicts | the simulation of C24 needs only that at each reduction of the tree the table has this reduction; conversely all reductions made are preferred (invariant) |
| C64 | `parse`, tables with conflicts | weights of symbols: a reduction makes the stack lighter, a shift uses up a token |
| C65 | `new`, `parse` | the valid items of these grammars (`OpsTable`): a reduction is in the table unless an operator or the `else` of an open `if` follows (`OpsAlong`); every tree can be regrouped (`OpsRot`) |
| C66 | `build` | the states of the minimised tables are reachable and distinguishable (C09), a state that is not stuck is viable (C45): Myhill-Nerode; subset construction: states are different sets of nodes (C07) |
| C67 | `new`, `parse` | the valid items of these grammars (`PrecTable`): what stands in front of an operand fixes the level it must have, what stands behind it the level it may have; then C22, C30, C64; trees and expressions correspond (`PrecProof`) |
| C68 | `parse` | the stack holds the roots of the trees built so far (the invariant of C23); shifting and reducing change `highs` of these trees by what they add to the stack; the height of the stack is the length of a viable prefix, which follows a way through the rules (`Valid.leads`); trees are nested at will along a cycle (`Nests.tall`) |
| C69 | `parse`, the program of parser_generator/tests/main.rs | trees with a value have no error slices (`Built.reports`), trees of the strict grammar are those of the whole one (`strict_tree`, `tree_strict`); the program is followed round by round from one operand to the next (`At`), and every input is one of the cases (`cover`) |
| C70 | the patterns of tokenizer_generator/tests | the languages of the three patterns (`patLang_iff`), the longest match case by case (`first_spec`), then C19 and C05 |
| C71 | LL(1) grammars | valid items as top-down paths (`Down`); two paths over the same symbols to items that act on the same terminal are the same, since left recursion is impossible (`no_loop`); leftmost derivations have one length, so no cycle; the table check by induction on derivations |
| C72 | part of a grammar | items valid for the part are valid for the whole behind some symbols, with the end marker replaced by what can stand behind (`part_valid`); trees of the part are trees of the whole (`part_tree`), then C25 and C30 |
| C73 | no useless entries | along the derivation of a valid item some tokens lead to its state with every possible continuation (`reach_viable`, by `sim`); up to the missing entry both parsers do the same (`drop_rejects`, `dropGoto_panics`) |
| C74 | `build`, order of the patterns | from C41 (which pattern matches which word) and C05 (the warnings are the neighbouring pairs of patterns matching a word: `chain`); equal matches give equal calls of `next` (`next_placed`) |
| C75 | `new` | states and sets of valid items correspond (C21); bit vectors over all items count them; in the family the item of a rule for `Qₖ` is valid after a word exactly if its last letter but `k` is an `a` (`far_valid`, `far_start`) |
| C76 | one grammar inside another | each valid item of the whole is one of the outer grammar, or one of the inner grammar behind a prefix that expects the terminal (`Plugs.valid`), and a prefix can be cut in one way only (`cut_unique`, `cut_short`); so a conflict of the whole would be one of the parts (`Plugs.no_clash`); trees are filled with trees for the values (`fill_tree`, `fill_fail`) |
| C77 | `minify` with collisions | two states are put together by mistake only if their keys compare equal and differ; in one group of a later round rows have the same domain, so that such keys are equal (`level_step`); keys of the first round are described by the runs of characters with one token after a text (`head_iff`, `torn_texts`) |
| C78 | ways of writing a regex | each rule keeps the relation `Code` of C41, that is what can be entered and left where (`Rewr.code`; loops are closed under composition, `code_closed`); the safe form has the same language (`safe_lang`) and meets the condition of C41 (`safe_faithful`) |
| C79 | LR(0), SLR(1), LALR(1), LR(1) | LR(1) items are LR(0) items whose look-ahead can follow the left-hand side (`Valid.dots`, `Complete.follow`); one tree only means that the start symbol does not derive itself (`Lm.forest`, `Gram.LR1.not_cyclic`); checks by simulation (`valid_in`, `in_dots`) |
| C80 | `==` of parsers and syntaxes | equal maps have equal lookups by counting (`mapEq_iff`); runs differ in the order of a set only (`step_same`); canonical tables with equal numbers are equal (`same_of_walk`); numbering the states in turned order (`turn_start`) |
| C81 | writing out a helper | a conflict is two successful sequences of moves that part too early (`Decided`); the moves of the new grammar are those of the old one without the reductions of the helper, a function of the beginning only (`imageMoves`, `works_lift`), so sequences that part too early come from ones that do (`inline_decided`); trees with the same values (`inline_built`) |
| C82 | exponential recovery | reading the `r` innermost blocks inside of a block makes `6 · 2ʳ − 6` calls (`AtE.blocks`, induction on `r`: the block inside, the error behind `w`, the block inside once more); calls are never undone, C44 says that it ends, C32 and the simulation by callbacks without values carry it to all seeds and callbacks |
| C83 | quadratic recovery | rounds that push a token or an error symbol are counted (`busy`), the other rounds are at most a constant times as many (`busy_pays`); an invariant of the stack bounds them by a potential (`pot`, `Inv2.step`): below the place last recovered at nothing is given up until a token further to the right is read; the check by closure of the four lists of non-terminals under derivations (`tidy_settled`) |
| C84 | exponential upper bound | every symbol on the stack weighs as much as reading from behind its first token, an error symbol as much as reading from behind the last token seen; reductions that reach below the two topmost states make the stack lighter (`quiet_rounds`, `phase_wt`), every other round makes stack and rest of the input together lighter (`busy_exp`) |
| C85 | no token lost | every stack entry carries its tree and the calls that made it (`TInv`); everything in front of an entry that begins with a token or an error is covered by the entries below (`TInv.below`), a reduction with a look-ahead the grammar allows is never followed by an error directly (`Complete.reduced`), so a given-up non-terminal has a symbol behind it and `Traced` applies |
| C86 | finished phrases are kept | C24's simulation of a tree up to the phrase (`keep_reach`); then the lowest entry of the stack always contains its tree at the left edge (`KInv.bottom`): an error directly behind a reduction is impossible, and with a symbol behind it `Keeps` gives a nearer place to recover at |
| C87 | `build`, `next` | from C41: the match of the joint list is the match of one of the parts (`patCode_append`); uniqueness of longest match with first pattern |
| C88 | callbacks never undone | the entries of the stack with their trees always contain all the calls for `Q` (`LInv.all`): what is given up contains no phrase of `Q`, as in C86, and so no call for `Q` (`Evals.none_of`, by closedness) |
| C89 | panic mode | behind `error` only items with a terminal next are valid (`StopIn.behind`): nothing is complete there and no error rule begins, so a token that does not fit replaces the error symbol by a longer one (`StopIn.swallow`); that it begins no later than the next token comes from the invariant of C88 for the empty set |
| C90 | look-ahead of the tokenizer | `Ahead` is about paths of the tables from an accepting state through states that do not accept (`ahead_walk`); a path longer than the number of such states has a loop that can be repeated (`Walk.long`); a call reads until the tables are stuck, which `Ahead` bounds (`read_le`) |
| C91 | errors are local | inside a damaged part everything read stands for tokens of this part (`Covers`), so reductions stay inside and recovery falls back exactly to its begin (`Inside.recovers`; the number of rounds is bounded by C44); then tokens are skipped as in C89 (`swallow_all`); the rest follows the tree as in C43 with the pending rules kept track of (`Damaged.reads`) |
| C92 | tokenizer and parser | the tokens of a text are those of its parts between blanks, one after the other (`ChunksGive`, induction over the tokens); then C47 and C30 |
| C93 | tokenizer and parser | C33 and C23 for the tokens, cutting the list of tokens at the same places as the text (C60); the nodes of a tree by induction over its evaluation |
| C94 | parts of an input | `WorksOut` is C30's evaluation without positions; a derivation with one non-terminal left is a context (`Around`, induction over the derivation), into which the evaluation of a part is put; phrases of an accepted input by induction (`WorksOut.phrase`) |
| C95 | edits of a text | a token that ends before the edit by more than the look-ahead is chosen after a run that is stuck before the edit, so the tokens of the cut text join with any continuation; where two kinds of characters meet, no token can reach over, then C60; `c95_text` is C94's exchange through C47's flattened token stream |
| C96 | `parse`, `next` | both parsers are images (`Mimics`, `Cfg.map`) of a third one whose tokens, values and errors are pairs; C48 says that its pairs of values always correspond, so its callbacks never disagree; other seeds by C32. For the tokenizer both calls of `next` are described by `next_spec` |
| C97 | `LR1Parser::new` | `Par/Residue`: rules that derive no tokens are left out (C72: still no warnings), then the next terminal decides the next move (`Par/Moves`). A beginning is continued until the stack is as low as it ever gets before the end of the input; below the top of it nothing is touched any more, so what may follow depends on the topmost symbol, the next terminal, and on which ends of right-hand sides can be reduced from there at the end. Palindromes: different beginnings have different continuations |
| C98 | unit test `parse_error` (`iter.rs:230-321`) | `Par/TestErr`: the callbacks keep a shape per nonterminal, so no `unreachable!()` is reached; a value whose tree has no error leaf spells its tokens; what is written has a tree, and the parser finds it as there are no warnings. An error leaf puts an error node into the value, and its rule has a `+` or `)` behind it. Termination for all seeds from one table and C80 |
| C99 | `LR1Parser::new`, `parse` | `Par/AutomataProof`: the left-recursive rules are SLR(1), since with the dot at `k` exactly the first `k` symbols of the rule have been read (C79); the right-recursive ones are LL(1) (C71). Values by C48's contracts; heights by C68. A tokenizer's table is such an automaton |
| C100 | `TokenizerBuilder::build` | `Props/TokUnique`: in the built table all states are reached and told apart (C09) and the rows are canonical (`compress_next` joins touching ranges); so states with the same future correspond, and canonical rows with the same look-ups are equal |
| C101 | `TokenizerBuilder::build`, `next` | `Tok/Agree`: both tables side by side with one state for being stuck; as long as longer words tell more states apart the number of classes grows, so `N` states are told apart by words of length `N - 2` |
| C102 | `TokenizerBuilder::build`, `next` | pigeonhole on the states met along a text |
| C103 | `TokenizerBuilder::build`; `LR1Parser::new`, `parse` | pigeonhole on the states; the LR(0) check of C79, C26 and the attributes of C48 |
| C104 | `TokenizerBuilder::build`, `next` | `Tok/Kleene`: a regex for an automaton, leaving out one state after the other; `Hir.safe` of C78; C99 for the other direction |
| C105 | `TokenizerBuilder::build` | pigeonhole on pairs of states; C05 for the warnings |
| C106 | `LR1Parser::new`, `parse` | `Par/Pump`: by induction on the number of rules used a derivation either has a non-terminal below itself with something beside it, or can be made into one with no non-terminal below itself, which is short; then C23/C24. Callbacks: C71 for the rules, C48 for the value |
| C107 | `parse` | `Par/Finish`: above the place behind the beginning no non-terminal need come again before a further token of the beginning has been derived; what stands to the right of the way up is made short as in C106; C28 for what has been read |
| C108 | `parse` | rules for the start symbol are used at the root only, so both parsers evaluate the same tree (C25, C30) and differ in the last call; C106 for the rules that collect tokens |
| C109 | `Debug for CharRange` | `Tok/Show`: by cases on the bounds; the ranges in built tables are not empty by C06; the two ranges with one text are found in a table built in the model |
| C110 | `Display` and `Error` for `ParseError` | `Par/Show`: from C30, which says how the log of calls ends |

## What was found about the code

Where a desirable claim is false of the code, the theorem proves what holds instead, and a witness shows the failure.

* Tokenizer, translation of regexes (C02, C41): loops share nodes with their surroundings. `(ab*)?`, `(a*b)*`, `(a*b){1,}` and
  the empty regex accept strings outside their language. C41 gives the exact language for every regex.
  So `x+` and `xx*` or `x{1,}`, `(x?)*`, `(x?)+` or `(x+)?` and `x*`, `(x|)` and `x?`, `(x|x)` and `x` can make different tokens; C78 says which ways of writing are
  equivalent and how to write a pattern that is matched exactly. Lazy repetitions (`x*?`) are treated like `x*`.
* Tokenizer, minimisation (C08): `CharRange`'s `Eq` ignores the end of the range. On a hash collision different states can be
  merged and matches appear or vanish. The tokenizers of the repository's own tests (`0b[0-1]+|0o[0-7]+|…`) are among those that can be
  hit (C70), while the patterns of an ordinary language and those of the example are not (C77).
* Tokenizer construction (C66): `[ab]*a[ab]{n}` needs `2^(n+1)` states, so `build` can take exponential time and memory.
* Parser construction (C75): a grammar with `2n + 4` short rules and without conflicts has at least `2^(n+1)` states.
* Tokenizer iterator (C14, C15): a pattern that matches the empty string makes the stream endless; `None` discards the items
  that were looked at, and a later call goes on behind them.
* Tokenizer iterator (C51): on a source that goes on after `None`, a token can consist of items from both sides of the `None`.
* Tokenizer iterator (C53): items that were put back are given to the closure again; the work can be quadratic in the input.
* Tokenizer and parser together (C47): a character that begins no token is taken for the end of the input, so text behind it is
  silently ignored and the parse may succeed.
* Example (C49): characters that belong to no token are skipped in silence, `12 x+3` is 15; only numbers can have a sign, `-(1)` is
  refused.
* Parser tables (C22, C25): an accept overrides a reduce without a warning, so `S → S | a` is ambiguous but gives no warning.
* Conflicts (C63, C65): since a shift is always preferred, in an ambiguous expression grammar all binary operators are right
  associative and of equal precedence (`a - a - a` is `a - (a - a)`) and `- a - a` is `- (a - a)`; `new` returns warnings, but
  `parse` does not refuse anything.
* Conflicts (C35, C64): with `A → B; B → A; A → a; S → A` (a warning) `parse` runs for ever on the sentence `a`.
* Parser construction (C20, C38): panics if a needed non-terminal has no rule, except for one special number of the start symbol.
* Error recovery (C29, C33, C34, C35, C42): panic on the empty input; an error at the end of input blames the first token;
  slices can overlap tokens handed over separately, or miss tokens; correct items next to the error can be swallowed; endless runs.
* Error recovery (C62): with `L → L I | I; I → a ; | error ;` the input `a ; b ;` is one error with the slice `a ; b`: a statement
  that begins with a wrong token takes the correct statement before it along, since the reduction of the latter needs a look-ahead
  that can begin a statement.  The slice that is handed to the callback sometimes includes the separator that is also handed to it
  as a token (`a ; ;` has the slice `a ; ;` and then the token `;`).
* Error recovery (C61): a rule that was abandoned in favour of another one stays pending, so that `parse` gives up although an
  error rule fits.
* Error recovery (C52): quadratically many calls of callbacks are possible, although parsing without error rules is linear.
* Error recovery (C82): exponentially many calls of callbacks are possible with a usual grammar of statements and blocks (`I → e ; | S w ; | error ;`, `S → { L }`): `n` nested
  `do { … } while (…)` whose `;` is missing take more than `2ⁿ` calls, so 30 of them (150 tokens) take more than 10⁹. The cause: a phrase that was complete is given up as a whole, and its inside
  is read once more, with errors inside of it recovered again. With the block written out in place (`I → e ; | { L } w ; | error ;`) the time is
  quadratic (C83), but error recovery then gives up on inputs where it succeeded before.
* Error recovery (C88): callbacks of phrases that are given up have run in vain, and with the rule `I → S w ;` of C82 the callback of one statement can run twice.
* Error recovery (C89): if every `error` is followed by a terminal, an error at the end of the input is never recovered, although the parser puts an error symbol there.
* Tokenizer iterator (C90): with patterns like `a` and `a*b` the items kept between two calls are not bounded by anything but the input.
* Error recovery (C91): if only one token is wrong (and possible at its place), or none (a missing phrase), the error slice includes the token behind, which is then read as well.
* Error recovery (C85): tokens can vanish. The start of a phrase that begins with `error` or with an empty phrase is not where its tokens begin, so that, if
  the phrase is given up later, the new error slice does not contain what the old one did, and the value of the phrase is thrown away.  Under the condition
  `Traced`, which the grammar of `tests/main.rs` meets, this does not happen.
* Parser and callbacks (C57): the token behind a phrase is asked for before the callback of the phrase is called, also if the
  grammar does not need it; a tokenizer that looks into what callbacks declare is one token late.
* Memory (C68): `parse` keeps every token it has read until it returns (for the slices of error rules), also if the grammar has no
  error rules; an endless source fills the memory even where the stack stays small.
* Macro (C36): two names for the same enum variant give a parser that depends on hash seeds; a start symbol without a rule.

## Tests of the theorems

`seeded/LOG.jsonl` lists edits of the model that imitate realistic bugs, and which theorems failed to prove after each.

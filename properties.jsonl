{"id": "C01", "title": "No missed match", "statement": "Whenever TokenizerBuilder::build succeeds, every string that belongs to the regular language of pattern i is accepted by the built tokenizer, with an accept index of at most i, provided no hash collision disturbed the minimiser (see C08).", "quantifier": "all pattern lists the builder accepts (any regex depth and repetition counts), all strings, all hash seeds", "why_tests_cant": "The regexes nest without bound and the strings are unbounded; tests check a handful of patterns.", "anchors": ["tokenizer/src/nfa.rs: TryFrom<HirKind> for NFA", "tokenizer/src/nfa.rs: TryFrom<Vec<Hir>> for TokenizerNFA", "tokenizer/src/dfa.rs: From<TokenizerNFA> for (TokenizerDFA, Vec<DFAConstructWarning>)", "tokenizer/src/dfa.rs: TokenizerDFA::minify"]}
{"id": "C02", "title": "No spurious match", "statement": "The built tokenizer accepts a string with index i only if the string belongs to the regular language of pattern i, provided pattern i is in the following class and no hash collision disturbed the minimiser (see C08). The class: no empty sub-regex; and whatever stands under *, {n,} either matches the empty string or does not begin with a loop, and whatever stands under ?, {0,m} either matches the empty string or neither begins nor ends with a loop. The condition cannot be dropped: the empty regex, (ab*)?, (a*b)* and (a*b){1,} accept strings outside their language.", "quantifier": "all pattern lists, all patterns of the class, all strings, all hash seeds", "why_tests_cant": "A spurious match only shows up for particular nestings of ?, *, {0,m}, {n,} and the empty regex, which tests miss (the claim is in fact false of this code for some of them).", "anchors": ["tokenizer/src/nfa.rs: TryFrom<HirKind> for NFA"]}
{"id": "C03", "title": "Build fails exactly on unsupported regexes", "statement": "Building fails with a construct error exactly when some pattern contains a byte literal, byte class, anchor or word boundary, the error names a construct that really occurs in the first offending pattern, and the builder never panics.", "quantifier": "all lists of parsed regexes that satisfy regex-syntax's invariants", "why_tests_cant": "Unbounded nesting of regexes; the error path interacts with every constructor.", "anchors": ["tokenizer/src/nfa.rs: TryFrom<HirKind> for NFA", "tokenizer/src/nfa.rs: TryFrom<Vec<Hir>> for TokenizerNFA"]}
{"id": "C04", "title": "First pattern wins ties", "statement": "If several patterns match the same string, the token is made by the pattern that was added first, provided no hash collision disturbed the minimiser (see C08); equivalently the combined tokenizer accepts with the least pattern whose own one-pattern tokenizer accepts.", "quantifier": "all pattern lists, all strings, all hash seeds", "why_tests_cant": "Priority depends on subset construction, insertion order into a HashMap and on minimisation merging states; tests try a few overlaps.", "anchors": ["tokenizer/src/dfa.rs: From<TokenizerNFA> for (TokenizerDFA, Vec<DFAConstructWarning>)", "tokenizer/src/dfa.rs: TokenizerDFA::minify"]}
{"id": "C05", "title": "Overlap warnings are exact", "statement": "build returns an EndConflict warning if and only if some string is matched by two different patterns; each warning EndConflict(a,b) has b<a and names two patterns that some string matches together, and for every string matched by two patterns the winning pattern is named in a warning.", "quantifier": "all pattern lists, all hash seeds", "why_tests_cant": "Quantifies over all strings: absence of a warning is a promise about infinitely many inputs.", "anchors": ["tokenizer/src/dfa.rs: From<TokenizerNFA> for (TokenizerDFA, Vec<DFAConstructWarning>)"]}
{"id": "C06", "title": "Transition tables are well formed", "statement": "In the tables of a built tokenizer every row consists of non-empty, strictly ordered, pairwise disjoint character ranges, all targets and the start state are existing states, all accept indices are existing patterns; so the lookup of a character returns the target of the unique range containing it and no table or callback access can panic.", "quantifier": "all pattern lists, all characters, all hash seeds", "why_tests_cant": "The range splitting has to be right for every overlap shape of input ranges.", "anchors": ["tokenizer/src/dfa.rs: From<TokenizerNFA> for (TokenizerDFA, Vec<DFAConstructWarning>)", "tokenizer/src/dfa.rs: align_by_begin, split_by_end", "tokenizer/src/dfa.rs: TokenizerDFA::minify", "tokenizer/src/tokenizer.rs: DFATokenizer::new, get_next_node, get_accept_index"]}
{"id": "C07", "title": "Subset construction and range splitting are exact", "statement": "The deterministic automaton reaches after any string exactly the set of automaton nodes the nondeterministic one can reach, and is stuck exactly when there is none; its accept index is the least pattern whose final node is reached.", "quantifier": "all pattern lists, all strings", "why_tests_cant": "Exactness over all range overlaps and all strings.", "anchors": ["tokenizer/src/dfa.rs: From<TokenizerNFA> for (TokenizerDFA, Vec<DFAConstructWarning>)", "tokenizer/src/dfa.rs: align_by_begin, split_by_end", "tokenizer/src/nfa.rs: epsilon_recursive"]}
{"id": "C08", "title": "Minimisation preserves behaviour", "statement": "For every hash iteration order, the minimised tokenizer behaves on every string exactly like the unminimised one (same accept index, stuck at the same place), provided no two different keys of the minimiser's hash map that compare equal (CharRange equality ignores the end of the range) collide. Always the minimiser ends and gives well-formed tables. The proviso cannot be dropped: with such a collision xa|y[ab] loses the match yb or gains the match xb, depending on the order of a hash set.", "quantifier": "all automata the builder can produce, all strings, all hash seeds / iteration orders", "why_tests_cant": "Iteration order and hash collisions are per-process random; a wrong merge needs a hash tag collision of two keys that compare equal (CharRange equality ignores the end), roughly one run in 128 or rarer, so tests practically never see it.", "anchors": ["tokenizer/src/dfa.rs: TokenizerDFA::minify", "tokenizer/src/lib.rs: CharRange (PartialEq/Ord by start, derived Hash)"]}
{"id": "C09", "title": "Minimality", "statement": "No tokenizer table with the same observable behaviour (accept index and stuck-ness on every string) has fewer states than the built one, provided no hash collision disturbed the minimiser (see C08).", "quantifier": "all pattern lists; all competing tables", "why_tests_cant": "Quantifies over all competing automata.", "anchors": ["tokenizer/src/dfa.rs: TokenizerDFA::minify"]}
{"id": "C10", "title": "Longest match", "statement": "Every token returned by next covers the longest prefix of the remaining input that any pattern matches (in the built automaton), and is made by the least pattern matching exactly that prefix.", "quantifier": "all tokenizers, all inputs, every call position", "why_tests_cant": "Unbounded input lengths and unbounded look-ahead/push-back distances.", "anchors": ["tokenizer/src/tokenizer/iter.rs: TokenizeIterator::next"]}
{"id": "C11", "title": "Nothing lost, nothing duplicated", "statement": "After any number of tokens, the concatenation of the items handed to the callbacks followed by the not yet consumed items is exactly the input.", "quantifier": "all tokenizers, all inputs, all numbers of calls of next", "why_tests_cant": "Push-back queue histories of arbitrary length.", "anchors": ["tokenizer/src/tokenizer/iter.rs: TokenizeIterator::next"]}
{"id": "C12", "title": "Callback arguments are consistent", "statement": "Each callback receives as string exactly the characters of the items it receives, in order, and it is the callback registered for the accept index of that string.", "quantifier": "all tokenizers, all inputs, all item-to-char maps", "why_tests_cant": "All histories of the push-back queue.", "anchors": ["tokenizer/src/tokenizer/iter.rs: TokenizeIterator::next", "tokenizer/src/tokenizer.rs: DFATokenizer::new, get_next_node, get_accept_index"]}
{"id": "C13", "title": "Tokenizing terminates when no pattern matches the empty string", "statement": "If no pattern matches the empty string, each token is non-empty, so an input of n items gives at most n tokens and then None.", "quantifier": "all such tokenizers, all inputs", "why_tests_cant": "Termination over all inputs.", "anchors": ["tokenizer/src/tokenizer/iter.rs: TokenizeIterator::next"]}
{"id": "C14", "title": "A pattern matching the empty string makes the token stream endless", "statement": "If some pattern matches the empty string, next never returns None, on any input; collecting the tokens never ends.", "quantifier": "all such tokenizers, all inputs, every call", "why_tests_cant": "An infinite run cannot be observed by a test.", "anchors": ["tokenizer/src/tokenizer/iter.rs: TokenizeIterator::next"]}
{"id": "C15", "title": "None means no prefix matches, and the unmatched items are discarded", "statement": "next returns None exactly when no prefix of the remaining input is accepted; it then has discarded exactly the shortest prefix on which the tables are stuck (or all the rest), and a later call continues behind the discarded items.", "quantifier": "all tokenizers, all inputs, all call histories", "why_tests_cant": "Histories with calls after None and unbounded discarded prefixes.", "anchors": ["tokenizer/src/tokenizer/iter.rs: TokenizeIterator::next"]}
{"id": "C16", "title": "Bounded reading", "statement": "One call of next pulls from the source only up to and including the first item at which the tables are stuck; it never pulls an item when they are already stuck.", "quantifier": "all tokenizers, all inputs, all call histories", "why_tests_cant": "Depends on every history of the push-back queue; matters for interactive sources.", "anchors": ["tokenizer/src/tokenizer/iter.rs: TokenizeIterator::next"]}
{"id": "C17", "title": "Catch-all totality", "statement": "If every single character is matched by some pattern and none matches the empty string, the tokens cover the whole input.", "quantifier": "all such tokenizers, all inputs", "why_tests_cant": "All inputs.", "anchors": ["tokenizer/src/tokenizer/iter.rs: TokenizeIterator::next"]}
{"id": "C18", "title": "tokenizer! equals the builder", "statement": "The tokenizer produced by the tokenizer! macro has the same tables as the one produced by TokenizerBuilder for the same patterns in the same order and the same hash seeds, fails with the same error, and with different seeds still makes the same tokens, provided no hash collision disturbed the minimiser (see C08).", "quantifier": "all pattern lists, all inputs", "why_tests_cant": "Quantifies over all generated tables.", "anchors": ["tokenizer_generator/src/lib.rs: tokenizer"]}
{"id": "C19", "title": "Tokenizing meets the regex specification", "statement": "For patterns built only from constructs the builder translates faithfully, the whole token stream is the one described by: repeatedly take the longest prefix that belongs to the language of some pattern, and let the first such pattern make the token, provided no hash collision disturbed the minimiser (see C08).", "quantifier": "all such pattern lists, all inputs, all hash seeds", "why_tests_cant": "End-to-end over all regexes and inputs.", "anchors": ["tokenizer/src/tokenizer.rs: TokenizerBuilder::build", "tokenizer/src/tokenizer/iter.rs: TokenizeIterator::next"]}
{"id": "C20", "title": "Parser construction is total", "statement": "LR1Parser::new terminates for every grammar, and does not panic if every non-terminal that is the start symbol or occurs on a right-hand side has a rule.", "quantifier": "all grammars", "why_tests_cant": "Termination of five nested fixpoint loops over all grammars.", "anchors": ["parser/src/parser.rs: LR1Parser::new", "parser/src/parser.rs: calc_closure, calc_goto, calc_all_goto", "parser/src/parser.rs: calc_null, calc_first, get_first"]}
{"id": "C21", "title": "Tables are the canonical LR(1) tables", "statement": "Following the tables from the start state along any sequence of symbols leads to a state exactly when that sequence is a viable prefix's spelling in the item sense, and that state offers: shift t iff some valid item expects t next, goto likewise, reduce/accept only for valid complete items with that look-ahead.", "quantifier": "all grammars, all symbol sequences, all hash seeds", "why_tests_cant": "Infinitely many viable prefixes.", "anchors": ["parser/src/parser.rs: LR1Parser::new", "parser/src/parser.rs: calc_closure, calc_goto, calc_all_goto", "parser/src/parser.rs: calc_null, calc_first, get_first", "parser/src/parser.rs: calc_table"]}
{"id": "C22", "title": "Conflict resolution and conflict warnings", "statement": "A shift beats a reduce, the rule added first beats a later rule; every overridden reduce is reported by a warning naming it, and every warning reports such an override; there is exactly one warning for each state, look-ahead and overridden rule. (Exception found: an accept silently overrides a reduce.)", "quantifier": "all grammars, all states, all look-aheads, all hash seeds", "why_tests_cant": "All grammars; absence of warnings is a universal claim.", "anchors": ["parser/src/parser.rs: calc_table"]}
{"id": "C23", "title": "Parsing is sound", "statement": "If parse returns Ok(v), there is a derivation tree of the start symbol whose rules' callbacks evaluate to v, whose terminal leaves are input tokens in input order and whose error leaves carry contiguous input slices; if it has no error leaf its leaves are the whole input.", "quantifier": "all grammars (with or without conflicts and error rules), all inputs, all hash seeds", "why_tests_cant": "Unbounded inputs, stacks and recovery histories.", "anchors": ["parser/src/iter.rs: Parse::parse", "parser/src/parser.rs: LR1Parser::new"]}
{"id": "C24", "title": "Parsing is complete for conflict-free grammars", "statement": "If LR1Parser::new returned no warning, every sentence of the grammar is parsed without any error recovery: the result is the value (or the first callback error) of a derivation tree of exactly that sentence, and the callbacks called are exactly those of the evaluation of that tree.", "quantifier": "all grammars without warnings (with or without error rules), all sentences, all callbacks, all hash seeds", "why_tests_cant": "Infinitely many sentences; completeness of LR(1).", "anchors": ["parser/src/iter.rs: Parse::parse", "parser/src/parser.rs: LR1Parser::new"]}
{"id": "C25", "title": "No warnings means unambiguous", "statement": "If LR1Parser::new returned no warning and the start symbol does not derive itself, no sentence has two different derivation trees. (Without the second condition it is false: S -> S | a gives no warning.)", "quantifier": "all grammars without warnings, all sentences", "why_tests_cant": "Quantifies over all sentences and trees. The exception is a reduce that an accept overrides silently.", "anchors": ["parser/src/parser.rs: calc_table"]}
{"id": "C26", "title": "Non-sentences are rejected", "statement": "For a grammar without warnings, without error rules and with all reachable non-terminals productive: if the input is not a sentence, parse returns RecoveryRuleNotFound unless a callback failed first. With callbacks that do not fail, parse decides the language: Ok exactly on the sentences, RecoveryRuleNotFound exactly on all other inputs.", "quantifier": "all such grammars, all inputs", "why_tests_cant": "All non-sentences.", "anchors": ["parser/src/iter.rs: Parse::parse"]}
{"id": "C27", "title": "Parsing terminates", "statement": "For a grammar without warnings, without error rules and with all reachable non-terminals productive, parse terminates with a result on every input.", "quantifier": "all such grammars, all finite inputs, all callbacks", "why_tests_cant": "Termination; an endless run cannot be observed by a test. Without the side conditions there are endless runs (see C35).", "anchors": ["parser/src/iter.rs: Parse::parse", "parser/src/parser.rs: LR1Parser::new"]}
{"id": "C28", "title": "Errors are detected at the first offending token", "statement": "For a grammar without error rules and with all reachable non-terminals productive, at every moment all tokens pulled except the last are the beginning of some sentence (even if there are conflicts). Without warnings, when parse returns RecoveryRuleNotFound, no sentence begins with the tokens pulled (or, if the end has been reached, the input is no sentence). With error rules, if there are no warnings: as long as the tokens pulled are also those of some sentence, no callback has got an error slice and parse has not given up, so recovery never begins before the first offending token has been seen.", "quantifier": "all such grammars, all inputs, every moment of the parse", "why_tests_cant": "All prefixes and all continuations.", "anchors": ["parser/src/iter.rs: Parse::parse", "parser/src/parser.rs: calc_closure, calc_goto, calc_all_goto"]}
{"id": "C29", "title": "parse does not panic", "statement": "For every parser made by LR1Parser::new and every input, parse never panics on its own (index, unwrap, unreachable!), whatever the recovery history, except on the empty input if the grammar has error rules. (There it can: witness.)", "quantifier": "all grammars, all inputs, all hash seeds, all recovery histories", "why_tests_cant": "Every stack/buffer history has to keep the index arithmetic valid.", "anchors": ["parser/src/iter.rs: Parse::parse", "parser/src/parser.rs: LR1Parser::new", "parser/src/parser.rs: calc_error_rules"]}
{"id": "C30", "title": "Callbacks run bottom-up, left to right, and the first failure ends the parse", "statement": "Without warnings (and if the start symbol does not derive itself), parse of a sentence makes exactly the calls of the left-to-right bottom-up evaluation of its derivation tree, in this order, and returns its value or first failure. For every grammar and input: if parse returns a callback error, the last call failed with exactly this error and all calls before it succeeded; otherwise all calls succeeded.", "quantifier": "all grammars, all inputs, all callbacks", "why_tests_cant": "Arbitrary callbacks and trees.", "anchors": ["parser/src/iter.rs: Parse::parse"]}
{"id": "C31", "title": "parse reads no further than needed", "statement": "The result, the callbacks called and the number of pulls depend only on the tokens pulled so far; the source is never polled again after its end; on Ok the whole input has been read. (With C28: without error rules parse never reads beyond the first token that cannot continue a sentence.)", "quantifier": "all grammars, all pairs of inputs, every moment of the parse", "why_tests_cant": "All run histories.", "anchors": ["parser/src/iter.rs: Parse::parse"]}
{"id": "C32", "title": "Hash seeds do not influence parsing", "statement": "State numbers depend on the hash seed, but two parsers built from the same rules under different hash orders give the same result on every input, call the same callbacks with the same arguments in the same order, pull the same number of tokens, and panic or run for ever on the same inputs. Whether new panics and which warnings it gives does not depend on the seeds either (warnings up to order, each as often).", "quantifier": "all grammars, all inputs, all callbacks, all pairs of iteration orders", "why_tests_cant": "Seeds are random per process.", "anchors": ["parser/src/parser.rs: LR1Parser::new", "parser/src/iter.rs: Parse::parse"]}
{"id": "C33", "title": "Error slices are real input slices", "statement": "Every error symbol handed to a callback on a non-empty input is a contiguous, non-empty slice of the input, and terminals handed to a callback are input tokens in input order, each used at most once in the tree. (But a slice may overlap tokens that are also handed over as terminals, and tokens may be in no slice: witnesses.)", "quantifier": "all grammars, all non-empty inputs, all recovery histories", "why_tests_cant": "Unbounded recovery histories.", "anchors": ["parser/src/iter.rs: Parse::parse"]}
{"id": "C34", "title": "Error at end of input", "statement": "Whenever an error is met at the end of input and parse goes on, the error symbol is the slice of the first token of the input, wherever the error was; so the slice can name a token that was accepted as something else: A -> x error | x y on x hands x over both as token and as error slice.", "quantifier": "all grammars with error rules, all inputs, every error at the end of input", "why_tests_cant": "Needs the relation between slice and error position for all inputs.", "anchors": ["parser/src/iter.rs: Parse::parse"]}
{"id": "C35", "title": "Parsing can run for ever", "statement": "The side conditions of C27 are needed: parse terminates is false for grammars with error rules (A -> error A | x runs for ever on every input that does not begin with x, without any warning), for grammars with conflicts (S -> A S x | B with empty A and B runs for ever on inputs beginning with x, although x is a sentence) and for warning-free grammars with unproductive non-terminals.", "quantifier": "all inputs of the stated form for each of the three grammars", "why_tests_cant": "An endless run cannot be observed by a test.", "anchors": ["parser/src/iter.rs: Parse::parse"]}
{"id": "C36", "title": "parser! equals LR1Parser::new", "statement": "If the token and symbol names of a parser! invocation denote pairwise different enum variants and the start symbol has a rule, then parser! expands exactly if LR1Parser::new does not panic on the rules as written, and on every input the generated parser gives the same result as the parser LR1Parser::new makes, with the same callback calls, panics and endless runs. An undeclared name or a leading | is a compile-time panic. Both conditions are needed: with two names for one variant the generated parser rejects sentences and depends on hash seeds, without any warning.", "quantifier": "all macro inputs, all inputs, all hash seeds of the compiler run and of the program", "why_tests_cant": "Quantifies over all generated tables and inputs; the tables are renumbered through arrays and rebuilt insert by insert.", "anchors": ["parser_generator/src/lib.rs: parser"]}
{"id": "C37", "title": "The ways to write a rule agree", "statement": "Rule::new, Rule::builder with one call per symbol and Rule::new_raw on the enum indices give the same rule: the enum indices of the given symbols in the given order with the given callback. A syntax keeps its rules in the order of the rule calls, and no rule contains the end-of-input marker.", "quantifier": "all rules, all callbacks, all enum index functions", "why_tests_cant": "All symbol lists.", "anchors": ["parser/src/syntax.rs: Rule::new, Rule::new_raw, RuleBuilder, SyntaxBuilder"]}
{"id": "C38", "title": "Grammars without rules for the start symbol", "statement": "If the start symbol has no rule, LR1Parser::new panics, unless the start symbol is the first number not in use: then it yields, without a warning, a parser that returns RecoveryRuleNotFound on every input after one pull, without calling a callback.", "quantifier": "all grammars whose start symbol has no rule, all inputs", "why_tests_cant": "The outcome depends on which symbol numbers are unused.", "anchors": ["parser/src/parser.rs: LR1Parser::new"]}
{"id": "C39", "title": "Hash seeds do not influence tokenizing", "statement": "Two tokenizers built from the same patterns under different hash seeds return the same outcome for every sequence of calls of next on every input, provided no hash collision disturbed the minimiser (see C08). The builds give the same warnings, each equally often, in some order; this holds with collisions too.", "quantifier": "all pattern lists, all inputs, all call histories, all pairs of hash seeds", "why_tests_cant": "Seeds are random per process; state numbers and warning order do depend on them.", "anchors": ["tokenizer/src/dfa.rs: TokenizerDFA::minify", "tokenizer/src/dfa.rs: From<TokenizerNFA> for (TokenizerDFA, Vec<DFAConstructWarning>)", "tokenizer/src/tokenizer/iter.rs: TokenizeIterator::next"]}
{"id": "C40", "title": "Rules are totally ordered, consistently with ==", "statement": "Rule::cmp gives Equal exactly for rules that are == (same symbols on both sides, whatever the callbacks), is antisymmetric and transitive, agrees with partial_cmp, and == rules feed the same data to the hasher.", "quantifier": "all triples of rules", "why_tests_cant": "Laws over all triples.", "anchors": ["parser/src/syntax.rs: impl PartialEq, PartialOrd, Ord, Hash for Rule"]}
{"id": "C41", "title": "Exact language of every pattern", "statement": "For every list of supported regexes, not only those of the class of C02, the built tokenizer accepts a string with index k exactly if the string is in the translated language of pattern k and of no earlier pattern; the translated language is given by a recursion on the regex alone (four languages, for the ways between the begin and the end of a piece); it contains the regular language and equals it for patterns of the class of C02. The warnings are exact, and the token stream is longest match / first pattern, with respect to the translated languages. (Proviso on hash collisions as in C08, not needed for the warnings.)", "quantifier": "all pattern lists the builder accepts, all strings, all inputs, all hash seeds", "why_tests_cant": "Tells for every regex what it really matches, including the wrongly translated nestings; no set of samples can.", "anchors": ["tokenizer/src/nfa.rs: TryFrom<HirKind> for NFA", "tokenizer/src/nfa.rs: TryFrom<Vec<Hir>> for TokenizerNFA", "tokenizer/src/dfa.rs: From<TokenizerNFA> for (TokenizerDFA, Vec<DFAConstructWarning>)", "tokenizer/src/dfa.rs: TokenizerDFA::minify", "tokenizer/src/tokenizer/iter.rs: TokenizeIterator::next"]}
{"id": "C42", "title": "Parsing with error recovery, exactly", "statement": "parse does, round for round, what the following machine on grammar symbols does, which knows the valid LR(1) items for the symbols read so far but no tables: shift the next token if it is expected; accept at the end if exactly the start symbol has been read; otherwise reduce by the first rule that is complete; otherwise recover: give up as few symbols as possible so that an error symbol fits (if error rules are pending only for one of these), the error symbol reaches from the first symbol given up to the offending token and includes an earlier error slice given up, reading goes on behind the first token given up, or with the offending token if nothing is given up; the fitting error rules are then pending until one of them is reduced; at the end of input nothing is given up and the slice is the first token. Same result, same callback calls with the same arguments in the same order, same number of pulls after every round, same panics, same endless runs.", "quantifier": "all grammars (with or without conflicts and error rules), all inputs, all callbacks, all hash seeds, every moment of the parse", "why_tests_cant": "All recovery histories of any length: nested errors, errors during recovery, errors whose recovery gives up earlier errors.", "anchors": ["parser/src/iter.rs: Parse::parse", "parser/src/parser.rs: LR1Parser::new", "parser/src/parser.rs: calc_error_rules"]}
{"id": "C43", "title": "Tables and warnings follow from rightmost derivations", "statement": "For grammars in which every reachable non-terminal derives some string of terminals (counting error): following the tables along a sequence of symbols leads to a state exactly if it is a viable prefix (a prefix of a right sentential form not reaching beyond the handle); there a terminal is shifted exactly if the prefix stays viable; accepting happens exactly behind the start symbol at the end; a rule is reduced exactly if it is the handle of some rightmost derivation with this prefix and this next terminal, nothing can be shifted or accepted and no earlier rule qualifies; the error rules recorded are those that continue with error. LR1Parser::new gives no warning exactly if prefix and next terminal determine the handle, that is if the grammar is LR(1).", "quantifier": "all such grammars, all symbol sequences, all hash seeds", "why_tests_cant": "Quantifies over all derivations.", "anchors": ["parser/src/parser.rs: LR1Parser::new", "parser/src/parser.rs: calc_closure, calc_goto, calc_all_goto", "parser/src/parser.rs: calc_null, calc_first, get_first", "parser/src/parser.rs: calc_table"]}
{"id": "C44", "title": "Error recovery terminates", "statement": "For a grammar without warnings in which every reachable non-terminal derives some string of terminals (counting error) and no error rule can begin its error behind arbitrarily many errors - for example because nothing that follows an error in a rule can begin with error - parse ends on every input, whatever the errors in it (with a result, except possibly a panic on the empty input). Without the last condition it is false, see C35.", "quantifier": "all such grammars, all finite inputs, all callbacks, all hash seeds", "why_tests_cant": "Recovery moves backwards in the input, so termination is not obvious, and an endless run cannot be observed by a test.", "anchors": ["parser/src/iter.rs: Parse::parse", "parser/src/parser.rs: calc_error_rules"]}
{"id": "C45", "title": "How much the tokenizer reads", "statement": "Provided the patterns have no empty character classes or alternations, one call of next takes another item from the source exactly as long as the items read in this call can still be completed to a token by some further characters; so it never reads past the first item that rules out every longer match. If it returns None, exactly what it read is gone and the rest is left; if it returns a token before the end of the input, it has read at least one item beyond the token, which it keeps for the next call. With an empty class the tokenizer may read further than that: witness.", "quantifier": "all such pattern lists, all inputs, all call histories, all hash seeds (proviso on collisions as in C08)", "why_tests_cant": "Viable means completable by some continuation: a statement about infinitely many continuations of every text.", "anchors": ["tokenizer/src/tokenizer/iter.rs: TokenizeIterator::next", "tokenizer/src/dfa.rs: TokenizerDFA::minify", "tokenizer/src/dfa.rs: From<TokenizerNFA> for (TokenizerDFA, Vec<DFAConstructWarning>)"]}
{"id": "C46", "title": "Parsing any iterator", "statement": "parse on an iterator that gives some items and then None has the outcome of parsing the list of these items (same result, same callback calls, same panics and endless runs), makes as many calls of next as needed and none after None, so it does not matter what the iterator would answer later. On an iterator that never ends parse never returns Ok and never panics; an error it returns depends only on the finitely many items read; and a parser that ends on all finite inputs either returns an error or goes on reading for ever, it never loops without reading.", "quantifier": "all grammars, all iterators (any state, also not fused or endless), all callbacks, all hash seeds", "why_tests_cant": "Iterators with arbitrary state and endless streams.", "anchors": ["parser/src/iter.rs: Parse::parse"]}
{"id": "C47", "title": "From text to parse result", "statement": "input.tokenize(&tokenizer).parse(&parser): if longest match / first pattern takes certain tokens from the text and then no more, the outcome is that of parsing the list of these tokens, with or without flatten() in between (which drops the tokens None), and after an early error the tokenizer stands behind the tokens read. If every character alone is a token and the empty text is none, the tokens cover the text. For a grammar without warnings and error rules a text is accepted exactly if its tokens are a sentence. If a pattern matches the empty text, parse never returns Ok. A character that begins no token looks like the end of the input: S -> a S | b accepts the text ab@ab (witness).", "quantifier": "all tokenizers and parsers that were built, all texts, all hash seeds (proviso on collisions as in C08)", "why_tests_cant": "Composition of two streaming components, on all texts.", "anchors": ["tokenizer/src/tokenizer/iter.rs: TokenizeIterator::next", "parser/src/iter.rs: Parse::parse", "example/src/main.rs: main"]}
{"id": "C48", "title": "What callbacks can rely on", "statement": "Whatever promise about the values of each non-terminal the callbacks keep as long as they get fitting arguments (for example: the value is the enum variant of the left-hand side) is kept all the time: every callback gets exactly as many arguments as its rule has symbols, for a terminal a token of that enum index, for error a non-empty slice, for a non-terminal a value with the promise, and Ok(v) has the promise of the start symbol. So it does not matter what a callback does on other arguments (unreachable!()). Without error rules the promise may also speak of the tokens a value stands for; then Ok(v) has the promise for the whole input.", "quantifier": "all grammars, all promises, all inputs, all callbacks, every moment of the parse, all hash seeds", "why_tests_cant": "Quantifies over all predicates on values and all parse histories; users write unreachable!() in every callback.", "anchors": ["parser/src/iter.rs: Parse::parse", "parser/src/syntax.rs: Rule"]}
{"id": "C49", "title": "The example calculator computes what is written", "statement": "The calculator of example/src/main.rs, for any number type: LR1Parser::new succeeds without warnings; a row of tokens is accepted exactly if it is an arithmetic expression (* and / bind stronger than + and -, equal operators group to the left, sqrt binds strongest, only numbers have signs), the answer is then Sum(Some(value)), and RecoveryRuleNotFound otherwise; no unreachable!() is reached, parse ends and does not panic. The number pattern is called exactly on numerals (although the pattern is outside the class of C02), so unwrap() after parse() does not panic. A written expression with any blanks between the tokens is computed; on every text the answer is RecoveryRuleNotFound or the value of an expression whose tokens stand in the text in this order with only single ignored characters around them (so 12 x+3 is 15).", "quantifier": "all expressions, all rows of tokens, all texts, all number types and operations, all hash seeds, with hash collisions (none can do harm here, see C77)", "why_tests_cant": "Infinitely many expressions; whole-program behaviour of tokenizer, flatten and parser together.", "anchors": ["example/src/main.rs: main", "parser/src/parser.rs: LR1Parser::new", "parser/src/iter.rs: Parse::parse", "tokenizer/src/tokenizer/iter.rs: TokenizeIterator::next"]}
{"id": "C50", "title": "The syntax of the macros", "statement": "parser! and tokenizer! accept exactly the texts of their grammars (visibility fn name() -> LR1Parser { token Path { .. } symbol Path { .. } errortype Type; start Name; rules } with rules <Name>::= symbols: pattern => expression; or | symbols: pattern => expression;, symbols [Name], \"text\", <Name>, ERROR, separators allowed but not required behind the last item of a list) and read every part as it is written; every text has at most one reading, spacing matters only inside ::, -> and =>, and nothing in the braces is ignored. Together with C36 and C18: the generated function returns a parser (tokenizer) that behaves like the one made from the rules (patterns) in the text.", "quantifier": "all token streams, all behaviours of Rust's own syntax for visibilities, paths, types, patterns and expressions, all hash seeds", "why_tests_cant": "All token streams; a test can only show that some texts are accepted or refused.", "anchors": ["parser_generator/src/lib.rs: impl Parse, parser", "tokenizer_generator/src/lib.rs: impl Parse, tokenizer"]}
{"id": "C51", "title": "Tokenizing any iterator", "statement": "tokenize works on every Iterator. If the source gives some items and then None, a call of next returns what it returns on the list of these items and has called the source once per item it took, at most once more to see the None. On any source, a call that returns has read finitely many items and its outcome depends on these alone (and on None, if it saw it); it never panics; it fails to return exactly if the source never ends and everything read can still be completed to a token. On a source that stays at None, any number of calls, and parsing of the tokens, go as on the list. (Otherwise they need not: a token can consist of items from both sides of a None.)", "quantifier": "all pattern lists, all hash seeds, all sources (finite, endless, resuming after None) and states of the iterator", "why_tests_cant": "The sources are arbitrary stateful, possibly endless processes; that a call never returns cannot be observed.", "anchors": ["tokenizer/src/tokenizer/iter.rs: TokenizeIterator::next", "tokenizer/src/tokenizer/iter.rs: Tokenize for Iterator", "parser/src/iter.rs: Parse::parse"]}
{"id": "C52", "title": "Parsing takes linear time", "statement": "For every grammar without error rules, without warnings, in which every reachable non-terminal derives some string, there is a constant C such that parse of n tokens ends after at most C*(n+1) rounds of its loop, whatever the tokens, the callbacks and the hash seeds; so it makes at most C*(n+1) calls of callbacks (also on inputs that are refused, and with rules that derive the empty string or rename symbols). With error rules this is false: for L -> empty | L A c | L error | L b, A -> a | A a the input a^n b takes n(n+1)/2+2 calls (proved for all n), because after an error all tokens but one of the phrase are read again.", "quantifier": "all such grammars, all inputs, all callbacks, all hash seeds; the constant depends on the grammar only", "why_tests_cant": "An asymptotic bound speaks about all input lengths; the quadratic family likewise.", "anchors": ["parser/src/iter.rs: Parse::parse", "parser/src/parser.rs: LR1Parser::new", "parser/src/parser.rs: calc_error_rules"]}
{"id": "C53", "title": "tokenize_with: when the closure is called", "statement": "The closure of tokenize_with may have a state (FnMut). Each call of next asks it once for every item it looks at, in order, from the first remaining item up to and including the first with which no pattern can go on; the token is the longest match of these answers, and the callback gets the answers and the items they belong to. So items that were looked at and put back are asked for again, and may get another answer (witness); but whatever the answers are, nothing panics, no item is lost or handed over twice, and callbacks get as many characters as items. If the answers do not depend on the state everything is as with a pure function. Collecting the tokens of n items asks at most 1+2+..+n times (if the empty text is no token), patterns a and a*b reach this bound on a^n for all n; if every text that can go on has a match at most K shorter, at most (K+2)n+K+1 times.", "quantifier": "all pattern lists, all closures and states, all inputs, all call histories, all hash seeds", "why_tests_cant": "Arbitrary stateful closures; the bounds speak about all input lengths.", "anchors": ["tokenizer/src/tokenizer/iter.rs: TokenizeIterator::next", "tokenizer/src/tokenizer/iter.rs: tokenize_with"]}
{"id": "C54", "title": "Callbacks cannot change the course of a parse", "statement": "The callbacks may have side effects (a counter, a Cell, the clock) and may panic. Two parsers with the same rules but with different callbacks, other values and other effects do the same in every round as long as no callback fails: they pull as many tokens, call the callbacks of the same rules with the same tokens in the same order, and end at the same time and in the same way. The effects happen one after the other in the order of the calls, each call finds the world as the call before left it; the first callback that returns an error or panics is the last one called, and parse ends with this error or panic. parse itself does not panic, ends if it ends with well-behaved callbacks, and in linear time where C52 applies. With pure callbacks this is the parser of C20 to C53.", "quantifier": "all grammars, all inputs, all callbacks with any effects, all states of the world outside, every moment of the parse", "why_tests_cant": "Arbitrary stateful callbacks and all parse histories.", "anchors": ["parser/src/iter.rs: Parse::parse", "parser/src/syntax.rs: Rule"]}
{"id": "C55", "title": "Callbacks with effects run over the derivation tree in order", "statement": "With callbacks that have side effects and may panic: at every moment every callback has been given the values its children's callbacks made, for a derivation forest of its right-hand side over the input; Ok(v) only for a derivation tree of the start symbol (so without error rules only for sentences), made by the callbacks of its nodes. On a sentence of a grammar without warnings, parse does exactly what going through a derivation tree bottom-up and from left to right does: same calls, same values, same effects, same error or panic, same world afterwards; if the start symbol does not derive itself this is the only derivation tree. Non-sentences never give a value. Promises that the callbacks keep in every world hold all the time (as C48).", "quantifier": "all grammars, all inputs, all callbacks with any effects, all states of the world outside, all hash seeds", "why_tests_cant": "Arbitrary stateful callbacks, all trees.", "anchors": ["parser/src/iter.rs: Parse::parse", "parser/src/parser.rs: LR1Parser::new"]}
{"id": "C56", "title": "Node pointers are safe and their values do not matter", "statement": "Building the automaton of the patterns with nodes at addresses chosen by an allocator that may reuse freed addresses, in a memory with other data: no pointer to a node that is gone is followed, no lock is waited for that is held by the same build, no map is indexed with a missing key. Afterwards the memory holds what it held before, unchanged, plus the nodes of the automaton; no lock is left held; everything reachable from the begin and the ends is one of these nodes. A word of pattern i can be read along the pointers from the begin to end i (and only such words for the patterns of C02). build in this memory has exactly the outcomes that the model without addresses has, so two builds with different allocators give the same tables, the same errors and the same warnings up to order, although sets of nodes are ordered by address.", "quantifier": "all patterns, all allocators that give out no address in use, all memories, all contents of cells that are not nodes, all hash seeds", "why_tests_cant": "Allocator behaviour, address reuse and layout cannot be enumerated by tests.", "anchors": ["tokenizer/src/nfa.rs: TryFrom<HirKind> for NFA", "tokenizer/src/nfa.rs: TryFrom<Vec<Hir>> for TokenizerNFA", "tokenizer/src/dfa.rs: From<TokenizerNFA> for (TokenizerDFA, Vec<DFAConstructWarning>)", "tokenizer/src/nfa.rs: TokenizerNFANodeRef, NFANodeRef, Clone for NFA"]}
{"id": "C57", "title": "Callbacks that change what the source answers", "statement": "The iterator handed to parse and the callbacks may share a state (a symbol table that callbacks fill and the tokenizer looks into). parse then goes through a derivation tree bottom-up and from left to right, at a leaf asking the source for an item, at a node calling the callback, always one item ahead, each finding the shared state as the one before left it: Ok(v) only if the items answered have a derivation tree for which this comes to v and to the state left behind (also with resolved conflicts); without warnings every sentence the source answers is gone through in this way, and a callback that fails does so in the tree of a sentence beginning with the items read; without cycles parse has one of these outcomes exactly if some derivation tree has it. RecoveryRuleNotFound only if no sentence begins with the items read; at every moment the items read but the last begin a sentence, so that nothing is asked in vain. parse itself does not panic, and the rounds are at most a constant times the number of items read. Witness: the token right behind a declaration is asked for before the callback of the declaration is called, so it is still told as unknown.", "quantifier": "all grammars without error rules, all sources, all callbacks with any effects on what they share with the source, all states, all hash seeds", "why_tests_cant": "Interleaving of two arbitrary stateful processes over all histories.", "anchors": ["parser/src/iter.rs: Parse::parse", "tokenizer/src/tokenizer/iter.rs: TokenizeIterator::next", "parser/src/syntax.rs: Rule"]}
{"id": "C58", "title": "Pointers to DFA nodes are safe and their values do not matter", "statement": "Building the deterministic automaton, minimising it and making the tables, with nodes at addresses chosen by an allocator that may reuse freed addresses, in a memory with other data, and with hash maps keyed by address visited in any order: no raw pointer is followed that does not lead to a live node, no map is indexed with a missing key, no vector out of range, no set without a first element is asked for it. After each of the two steps the automaton consists of distinct nodes of its own, and following pointers from its begin and its ends leads to these nodes only; after minify the old nodes are gone and nothing points to them. In the end all nodes of both automata are gone and everything else in memory is as it was. build has an outcome in every such memory, and its outcomes are exactly those of the model without addresses (warnings up to order); two builds with different allocators, memories and hash seeds that confuse no keys give tokenizers that answer alike on every input, with the same set of warnings.", "quantifier": "all patterns, all allocators that give out no address in use, all memories, all orders of the maps keyed by address, all hash seeds", "why_tests_cant": "Allocator behaviour, address reuse and the iteration order of address-keyed maps cannot be enumerated by tests.", "anchors": ["tokenizer/src/dfa.rs: From<TokenizerNFA> for (TokenizerDFA, Vec<DFAConstructWarning>)", "tokenizer/src/dfa.rs: TokenizerDFA::minify", "tokenizer/src/tokenizer.rs: DFATokenizer::new, get_next_node, get_accept_index", "tokenizer/src/dfa.rs: DFANode"]}
{"id": "C59", "title": "Names, order and unused rules do not matter", "statement": "Two grammars that are the same as far as their start symbols reach, except for the numbers of non-terminals, the numbers of terminals (and of tokens accordingly), the places of rules in the list and rules out of reach: LR1Parser::new panics for both or for neither and warns for both or for neither; if the rules in reach stand in the same order the warnings are the same, too. If the order is the same, or if there are no warnings, the two parsers do the same in every round on every input, also during error recovery: same callbacks with the same arguments, same result, same number of pulls, same panics and endless runs, whatever the hash seeds. So renumbering (another order of enum variants), rules that are never reached (even unproductive or conflicting ones), tokens that no rule mentions and, without warnings, the order of rules are irrelevant. With warnings the order matters: S -> a {1} and S -> a {2}.", "quantifier": "all pairs of such grammars, all inputs, all callbacks, all pairs of hash seeds", "why_tests_cant": "All pairs of grammars and all inputs.", "anchors": ["parser/src/parser.rs: LR1Parser::new", "parser/src/iter.rs: Parse::parse", "parser/src/parser.rs: calc_error_rules"]}
{"id": "C60", "title": "Tokenizing a text in pieces", "statement": "If the first tokens of a text u v cover exactly u, then u alone has these tokens and all further calls of next have the outcomes they have on v alone; so after an edit in front of a common rest the tokens are the same from the first common token end on. Exactly when u and v may be tokenized one after the other: u is covered by tokens, and no text that begins at the begin of one of these tokens and ends within v is a token. In particular, if no token goes on behind a certain item (a line end) and no token is empty, texts can be cut behind each such item. Elsewhere they cannot: with a+ the text aa is one token, its halves are two.", "quantifier": "all pattern lists, all hash seeds (also with collisions), all texts and all ways to cut them, all callbacks", "why_tests_cant": "All pairs of texts.", "anchors": ["tokenizer/src/tokenizer/iter.rs: TokenizeIterator::next"]}
{"id": "C61", "title": "When a parser with error rules gives up", "statement": "If some error rule can begin at the very beginning of the input, parse does not return RecoveryRuleNotFound before it has read the whole input and has been told that it ends, so never on an endless source; provided that error rules come in groups (two places with a common error rule have the same error rules; e.g. there is one error rule) or all can begin at the beginning. More generally, with groups, parse gives up in front of a token only if no error rule can begin behind any part of what has been read; an error that was once begun is never given up before its rule is complete. Without groups this fails: a rule that was abandoned for another one stays pending and keeps parse from using an error rule that fits.", "quantifier": "all grammars, all hash seeds, all callbacks, all inputs, all endless sources", "why_tests_cant": "All grammars with error rules, all inputs.", "anchors": ["parser/src/iter.rs: Parse::parse"]}
{"id": "C62", "title": "Lists of statements with recovery", "statement": "For the usual grammar with recovery, L -> L I | I, I -> b ; for each body b, I -> error ;, it is said what parse does on every input. The input falls into segments up to a separator; a segment whose first token cannot begin a statement is read together with the one before. Each of these chunks gives one item, from left to right: the callback of the statement if the chunk is one correct segment, otherwise the callback of I -> error ; with the tokens of the chunk without its last separator (with it, if nothing stands between the last two separators or the chunk is a single token that begins a statement), and then a callback of the list. If something follows behind the last separator, parse returns RecoveryRuleNotFound, and the last chunk is not evaluated if that something cannot begin a statement. So, if no callback fails, parse succeeds exactly on the inputs that end with a separator; a correct statement is kept if nothing follows or what follows can begin a statement, and is lost in the error of the next one otherwise.", "quantifier": "all lists of bodies without the separator, all hash seeds, all callbacks, all inputs", "why_tests_cant": "Every input over any number of statements.", "anchors": ["parser/src/iter.rs: Parse::parse"]}
{"id": "C63", "title": "Which tree is taken where the grammar has conflicts", "statement": "Whatever warnings new returns: if the input has a derivation tree in which every reduction was the preferred one (at that point, with the next token, nothing could be shifted and no earlier rule could be reduced), parse evaluates exactly this tree, in order, and returns its value or its first callback error. There is at most one such tree. Without error rules, parse returns a value only for inputs that have one. Without warnings (and if the start symbol does not derive itself) every derivation tree is of this kind. For E -> E + E | a the input a + a + a is taken as a + (a + a).", "quantifier": "all grammars in which everything in reach derives some string, with any conflicts, all hash seeds, all callbacks, all inputs", "why_tests_cant": "All ambiguous grammars and all inputs; a test sees one tree for one input.", "anchors": ["parser/src/parser.rs: LR1Parser::new", "parser/src/parser.rs: calc_table", "parser/src/iter.rs: Parse::parse"]}
{"id": "C64", "title": "Conflicts and termination", "statement": "Whatever conflicts the grammar has: if no rule is empty, no non-terminal derives itself by rules with a single non-terminal and there are no error rules, parse ends with a result on every input after at most (2 R + 4) n + 1 rounds for R rules and n tokens, without a panic; inputs that are not sentences are refused. With a chain from a non-terminal to itself parse can run for ever on a sentence (A -> B, B -> A, A -> a, S -> A on a).", "quantifier": "all grammars with these conditions and any warnings, all hash seeds, all callbacks, all inputs", "why_tests_cant": "Termination on infinitely many inputs.", "anchors": ["parser/src/parser.rs: calc_table", "parser/src/iter.rs: Parse::parse"]}
{"id": "C65", "title": "Ambiguous grammars of expressions", "statement": "For a grammar E -> a | p E | E q | E o E | ( E ) | if E | if E else E with any number of atoms, prefix, postfix and binary operators, brackets and conditionals in any order, new only warns, and parse still decides the language: every sentence has exactly one tree that is grouped to the right (what stands to the left of an operator ends with a token, so it is no application of a binary or prefix operator or of a conditional; an else belongs to the nearest if), and parse evaluates this tree; for everything else it returns RecoveryRuleNotFound. So all binary operators are right associative and of equal precedence, prefix operators take everything to the right, postfix operators bind tightest.", "quantifier": "all such grammars and orders of rules, all hash seeds, all callbacks, all inputs", "why_tests_cant": "All operator tables and all expressions.", "anchors": ["parser/src/parser.rs: LR1Parser::new", "parser/src/parser.rs: calc_table", "parser/src/iter.rs: Parse::parse"]}
{"id": "C66", "title": "Size of the tokenizer tables", "statement": "The built tables have exactly as many states as there can be texts that can still become a token and that are pairwise told apart by some continuation (with it, the first matching pattern of the two differs); so many such texts exist and more do not. Hence the size depends only on which pattern matches which text first, not on how the patterns are written. For all hash seeds, with collisions or not, there are fewer than 2 to the number of nodes of the automaton of the patterns, which is linear in the patterns with counted repetitions written out. The exponent is needed: [ab]*a[ab]{n} has 2n+5 nodes and 2^(n+1) states.", "quantifier": "all pattern lists without empty classes and all hash seeds without a harmful collision (for the upper bound: all pattern lists and all hash seeds; for the family: all n and all hash seeds)", "why_tests_cant": "A size for all patterns; measuring a few patterns shows neither the bound nor the growth.", "anchors": ["tokenizer/src/tokenizer.rs: TokenizerBuilder::build", "tokenizer/src/dfa.rs: From<TokenizerNFA> for (TokenizerDFA, Vec<DFAConstructWarning>)", "tokenizer/src/dfa.rs: TokenizerDFA::minify"]}
{"id": "C67", "title": "Expressions with levels of precedence", "statement": "For the usual unambiguous grammar of expressions - one non-terminal for each level, Ei -> Ei+1 and Ei -> Ei o Ei+1 (left), Ei+1 o Ei (right), Ei+1 o Ei+1 (not associative), o Ei (in front) or Ei o (behind) for each operator of the level, En -> a | ( E0 ) - with any number of levels, operators, atoms and brackets and the rules in any order: new gives no warnings, provided that the role of a token is clear from whether it stands in front of an operand or behind one (so - may be both a prefix and a binary operator). On every input, if callbacks do not fail and Ei -> Ei+1 hands on its value: either it is the text of exactly one expression grouped as levels and associativity demand, and parse returns the value that the callbacks of its operators give; or it is the text of none, and parse returns RecoveryRuleNotFound. An expression of any shape, printed with brackets only where level or associativity need them, is read back with its value. If a token has two roles behind an operand there can be conflicts.", "quantifier": "all precedence tables, all orders of the rules, all hash seeds, all callbacks, all inputs, all expressions", "why_tests_cant": "All precedence tables and all expressions; a test fixes one grammar and a few inputs.", "anchors": ["parser/src/parser.rs: LR1Parser::new", "parser/src/parser.rs: calc_table", "parser/src/iter.rs: Parse::parse"]}
{"id": "C68", "title": "Memory of a parse", "statement": "For grammars without error rules, with or without conflicts: during a parse that gives a value the stack gets exactly as high as building the evaluated derivation tree takes (while child number i of a node is built, the i children before it wait), which is its depth of nesting without counting steps to a first child, up to the length of the longest right-hand side. If no non-terminal contains itself other than at its left edge, the stack stays below a bound that depends on the grammar only, for all inputs, also with errors, error rules and conflicts (k + (k-1) R for R rules of length at most k); otherwise, without warnings, no bound holds. So left-recursive lists take constant stack, right-recursive ones stack for every item. Without empty rules there are at most as many stack entries as tokens read. But all tokens that were read are kept in memory until the end, so memory grows with the input for every grammar.", "quantifier": "all grammars, all hash seeds, all callbacks, all inputs, all rounds of the loop (the conditions on the grammar as stated)", "why_tests_cant": "The greatest height over all inputs of any length.", "anchors": ["parser/src/iter.rs: Parse::parse"]}
{"id": "C69", "title": "Error rules that only report", "statement": "If the callbacks of all rules with `error` return Err when they are given an error slice, then parse returns Ok for sentences only (also for grammars with conflicts), and without warnings it returns Ok v exactly if the parser for the rules without `error` (which has no warnings then) does, and for sentences the same callback errors; so adding such rules improves messages and changes no result. For the project's own program of this kind (parser_generator/tests/main.rs) the result is known for every input: sums of products of numbers give the nested lists; otherwise the slice of the first operand that is not a single number is reported: all numbers if there are several, the operator if there is none, and the first token of the whole input if the input ends there; only the empty input panics.", "quantifier": "all grammars without cycles, all hash seeds, all callbacks, all inputs; for the test program all inputs and hash seeds", "why_tests_cant": "The test has one correct and one wrong input.", "anchors": ["parser/src/iter.rs: Parse::parse", "parser/src/parser.rs: LR1Parser::new", "parser_generator/tests/main.rs: create_parser"]}
{"id": "C70", "title": "The tokenizers of the generator's tests, for every text", "statement": "The tokenizers of tokenizer_generator/tests (words, numbers in several bases, any other character) are built for all hash seeds, warn of exactly the two overlaps with the catch-all pattern, and cut every text as a tokenizer written by hand would: a letter or underscore starts a word that goes on as long as possible; 0 followed by a base letter and at least one digit of that base is one number with all such digits, otherwise 0 is a number by itself; another digit starts a decimal number; every other character is a token of its own. The texts of the tokens make up the input; with numbered characters the callbacks get the place of the first character, and indexing the first item never panics. This needs that no hash collision disturbs minify: for these patterns one can, and then 0o7, one token in the tests, is cut into 0 and o7, or 0b7 becomes one number.", "quantifier": "all texts of Unicode characters, all hash seeds (without harmful collision, see C08 and C77; the witnesses show that it is needed); callbacks of any kind", "why_tests_cant": "The tests have three texts.", "anchors": ["tokenizer_generator/tests/normal.rs", "tokenizer_generator/tests/with.rs", "tokenizer/src/tokenizer.rs: TokenizerBuilder::build", "tokenizer/src/tokenizer/iter.rs: TokenizeIterator::next"]}
{"id": "C71", "title": "Grammars for top-down parsing give no warnings", "statement": "If a grammar is LL(1) - one terminal tells which rule for a non-terminal is to be used, in the textbook sense: no two rules for a non-terminal, each with what can follow it, derive something beginning with the same terminal - and everything in reach derives some string, then LR1Parser::new succeeds without any warning (error rules included), the grammar is unambiguous, and parse gives for each sentence the value (or first callback error) of its only tree and an error for everything else. The usual check with nullable, FIRST and FOLLOW sets suffices to know that a grammar is LL(1). With a non-terminal that derives nothing there can be warnings. The converse fails: left-recursive lists give no warnings and are not LL(1).", "quantifier": "all LL(1) grammars, all hash seeds, all callbacks, all inputs", "why_tests_cant": "A theorem about all grammars of a class; a test tries one grammar.", "anchors": ["parser/src/parser.rs: LR1Parser::new", "parser/src/parser.rs: calc_table", "parser/src/iter.rs: Parse::parse"]}
{"id": "C72", "title": "More rules never remove conflicts; fewer rules never bring them", "statement": "If LR1Parser::new returns no warning for a grammar, it returns none for any grammar made of some of its rules, in any order, with the same start symbol, or with any non-terminal in reach as start symbol (if everything in reach derives some string). And rules that are added without a warning do not change what the old sentences mean: on each sentence of the smaller grammar both parsers return the same value or the same callback error (if the start symbol does not derive itself). So a language can be extended rule by rule, or a part of its grammar used by itself. With a symbol in reach that derives nothing, another start symbol can bring warnings.", "quantifier": "all grammars without warnings, all selections of their rules, all hash seeds, all callbacks, all sentences", "why_tests_cant": "A statement about all pairs of grammars.", "anchors": ["parser/src/parser.rs: LR1Parser::new", "parser/src/parser.rs: calc_table", "parser/src/iter.rs: Parse::parse"]}
{"id": "C73", "title": "Nothing in the tables is for nothing", "statement": "For a grammar without warnings and without error rules, in which everything in reach derives tokens and the start symbol does not derive itself: the states are numbered 0, 1, \u2026 without gaps, every state is reached in the parse of some sentence, and every single entry of the tables is needed: if one action is left out, some sentence is rejected with NoRecovery that was accepted; if one goto is left out, the parse of some sentence that was accepted panics. So the tables cannot be made smaller by deleting entries. Without any of these conditions there are grammars with a state that no input reaches, and without a warning if the start symbol derives itself or a symbol derives no tokens.", "quantifier": "all such grammars, all hash seeds, all callbacks that do not fail, all entries of the tables", "why_tests_cant": "For each entry there is a sentence, none of which a test can know in advance; the statement is about all tables.", "anchors": ["parser/src/parser.rs: LR1Parser::new", "tokenizer/src/tokenizer.rs: TokenizerBuilder::build", "parser/src/parser.rs: calc_table", "parser/src/iter.rs: Parse::parse"]}
{"id": "C74", "title": "The order of the patterns", "statement": "Rearranging the patterns changes no token if the two patterns of every warning EndConflict(a, b) keep their order; so without warnings the order does not matter at all, and then no order gives a warning. If, on the other hand, a pattern that matches a text is moved in front of the one that makes its token, another pattern makes it from then on. Patterns added at the end take no text away from the patterns that were there. A pattern can be left out without changing any match exactly if each text it matches is matched by a pattern in front of it (it is dead). In general, moving, adding and removing patterns leaves every match as it is exactly if no pattern overtakes the first one that matches some text and no new texts are matched.", "quantifier": "all pattern lists that build, all rearrangements, insertions and removals, all hash seeds (without harmful collision, see C08), all texts", "why_tests_cant": "A statement about all pairs of pattern lists and all texts.", "anchors": ["tokenizer/src/tokenizer.rs: TokenizerBuilder::build", "tokenizer/src/dfa.rs: From<TokenizerNFA> for (TokenizerDFA, Vec<DFAConstructWarning>)", "tokenizer/src/tokenizer/iter.rs: TokenizeIterator::next"]}
{"id": "C75", "title": "Size of the parser tables", "statement": "LR1Parser::new makes exactly one state for each different set of LR(1) items valid for some viable prefix. Their number is below 2 to the number of items (places for the dot times possible look-aheads), and the entries of the tables are for states, for terminals and non-terminals of the rules, and lead to states. It can indeed be exponential without any warning: the grammar S -> a S | b S | a Q0; Qi -> a Qi+1 | b Qi+1; Qn -> empty has 2n+4 short rules and at least 2^(n+1) states.", "quantifier": "all grammars whose rules do not contain the end marker; all n; all hash seeds", "why_tests_cant": "Concerns all grammars; the family with exponential growth is infinite and the time and memory of new become unusable before a test shows more than a few members.", "anchors": ["parser/src/parser.rs: LR1Parser::new", "parser/src/parser.rs: calc_table", "parser/src/parser.rs: calc_closure, calc_goto, calc_all_goto"]}
{"id": "C76", "title": "Grammars can be put together", "statement": "If two grammars without common symbols have no warnings, the start symbol of one can be put in place of a terminal of the other without getting a warning, provided that the inner grammar does not derive the empty string, its start symbol does not derive itself, and the terminal never stands directly behind itself in the outer grammar (for which there is a check on pairs of symbols). The sentences of the result are those of the outer grammar with sentences of the inner one in place of the terminal, and each has one derivation tree. One gets the same result in two steps, parsing the pieces of the inner grammar first and then the rest with their values as tokens; if the outer callbacks do not fail, the error of the first piece that fails is the result. For instance lists with a separator (L -> L , X | X) and lists with an end mark (L -> L X ; | empty) of anything have no conflicts and mean what they should. Without any one of the four conditions there are examples with conflicts.", "quantifier": "all pairs of grammars with these properties, all terminals, all hash seeds", "why_tests_cant": "A statement about all pairs of grammars; a test shows single combinations.", "anchors": ["parser/src/parser.rs: LR1Parser::new", "parser/src/parser.rs: calc_table", "parser/src/parser.rs: calc_closure, calc_goto, calc_all_goto"]}
{"id": "C77", "title": "When hash collisions can do no harm", "statement": "CharRange compares only the start of a range but hashes the end too, so that minify may take two different states for one on a hash collision (C08). This can happen only if the patterns are torn: there are two texts u and v and a character c such that u and v have the same token (or none), the same characters begin something new after them, c can follow both, c+1 can follow only v, and uc, vc and v(c+1) have the same token. If no texts are torn, the tokenizer is built and cuts every text by its patterns for all hash seeds, whatever keys collide. Whether patterns are torn can be decided by looking at the first round of minify only; the patterns of an ordinary language (keywords, identifiers, numbers, strings with escapes, comments, operators) are not, nor are those of the example calculator; xa|y[ab] is, and there are seeds with which it is cut wrongly.", "quantifier": "all pattern lists (for the exact description: without empty classes), all hash seeds and all collisions, all texts", "why_tests_cant": "Collisions depend on random seeds and are rare; no test can exclude them.", "anchors": ["tokenizer/src/dfa.rs: TokenizerDFA::minify", "tokenizer/src/dfa.rs: From<TokenizerNFA> for (TokenizerDFA, Vec<DFAConstructWarning>)", "tokenizer/src/tokenizer.rs: TokenizerBuilder::build"]}
{"id": "C78", "title": "Writing a pattern in another way", "statement": "These ways of writing a regex change nothing, wherever in a pattern they are used: neither whether the tokenizer is built, nor a warning, nor a token of any text: (x) and x; x{1} and x; x{n,n} and x{n}; x{0,1} and x?; x{0,} and x*; x{3} and xxx; x{3,} and x{3}x*; brackets within a sequence; x**, (x+)*, (x*)+, (x*)? and x*; x++ and x+; x?? and x?; another order, other brackets or repetition of alternatives; xy|xz and x(y|z); xz|yz and (x|y)z; a and [a]; a union of classes and one class. Others do change tokens although the language is the same: x+ and xx*, x+ and x{1,}, (x?)*, (x?)+ or (x+)? and x*, (x|) and x?, (x|x) and x. Every regex can be written so that its language is matched exactly: an empty regex as a{0}, and where the operand x of a repetition is not known to be harmless, (x|x) in its place; what is matched exactly anyway stays as it is, and whether the tokenizer is built does not change.", "quantifier": "all pattern lists, all regexes at all places in them, all fair hash seeds without harmful collisions, all texts", "why_tests_cant": "The rules hold for all regexes and contexts; a test can only compare some pairs on some texts.", "anchors": ["tokenizer/src/nfa.rs: TryFrom<HirKind> for NFA", "tokenizer/src/nfa.rs: TryFrom<Vec<Hir>> for TokenizerNFA", "tokenizer/src/tokenizer.rs: TokenizerBuilder::build"]}
{"id": "C79", "title": "Grammars for other generators give no warnings", "statement": "If a grammar is LR(0), SLR(1) or LALR(1) in the textbook sense (LALR(1) is what yacc and bison want), or LR(1), then LR1Parser::new returns no warning, and succeeds if everything in reach derives some string (error rules included); without error rules every sentence then has exactly one derivation tree, whose value or first callback error parse returns, and anything else is refused. If everything in reach derives tokens, a grammar is LR(1) exactly if there are no warnings and the start symbol does not derive itself. Each family is larger than the one before; so there are grammars that yacc complains of but this parser does not: S -> a E a | b E b | a F b | b F a, E -> e, F -> e. An automaton given as evidence can be checked mechanically.", "quantifier": "all grammars, all hash seeds, all callbacks and all inputs", "why_tests_cant": "Being LALR(1) is a statement about all viable prefixes; no number of test grammars shows that it always suffices.", "anchors": ["parser/src/parser.rs: LR1Parser::new", "parser/src/parser.rs: calc_table", "parser/src/parser.rs: calc_closure, calc_goto, calc_all_goto"]}
{"id": "C80", "title": "What == says about parsers and syntaxes", "statement": "LR1Parser and Syntax can be compared with ==, which does not look at the callbacks. Parsers that are == and have the same callbacks cannot be told apart by parsing (results, calls of callbacks, tokens taken from the source, panics, endless runs), also if their public tables were changed by hand; == is an equivalence. Parsers made by new are == exactly if their syntaxes are == and each sequence of symbols leads to states of the same number in both. So syntaxes that are == give parsers that are == if the hash maps are iterated in the same order; but for every grammar there is another order that gives a parser which is not ==, although it does the same on every input: that two parsers are not == says nothing.", "quantifier": "all parsers (also hand-made ones), all grammars, all pairs of hash seeds, all callbacks, all inputs", "why_tests_cant": "Equal behaviour on all inputs, and all iteration orders; a test that compares two parsers made by new fails at random.", "anchors": ["parser/src/parser.rs: LR1Parser::new", "parser/src/parser.rs: derive(PartialEq) for LR1Parser", "parser/src/syntax.rs: derive(PartialEq) for Syntax, Rule::eq"]}
{"id": "C81", "title": "A helper non-terminal can be written out", "statement": "If a grammar has no warnings, everything in reach derives some string, and the start symbol does not derive itself, then a non-terminal A other than the start symbol that does not occur in its own rules can be written out: every A in every rule is replaced by each of its right-hand sides, the rules of A are dropped, and the new callbacks call those of A first. LR1Parser::new still gives no warning (error rules included), the sentences are the same, and without error rules every input has the same value with both parsers, or none with both; if the callbacks cannot fail, an input that is no sentence is given up at the same token. None of this holds half-way: writing A out in only one of two rules can bring a warning, introducing a helper can bring a warning, and if several callbacks fail the error returned can be another one.", "quantifier": "for all fair hash orders, rules (with any callbacks), non-terminals A and inputs", "why_tests_cant": "writing out a helper changes all states of the automaton; that no conflict appears is a statement about all grammars and all viable prefixes", "anchors": ["parser/src/parser.rs: LR1Parser::new", "parser/src/iter.rs: Parse::parse"]}
{"id": "C82", "title": "Error recovery can take exponential time", "statement": "For the grammar L -> empty | L I, I -> e ; | S w ; | error ;, S -> { L } (statements, do { ... } while blocks and the usual recovery at a semicolon) new gives no warnings and parse ends on every input (C44). But on n >= 2 blocks inside of each other, { e ; { e ; ... } w } w ;, where the semicolon is missing behind all but the outermost w (5n+1 tokens), parse makes at least 2^n calls of callbacks unless one of them fails, whatever the callbacks and the hash seeds: for each missing semicolon the whole block is given up after it has been parsed, and its inside is read and recovered once more one level further out. So no polynomial of the number of tokens bounds the number of calls.", "quantifier": "all n, all parsers made from rules of this grammar, all callbacks, all token types, all hash seeds; all polynomials", "why_tests_cant": "The claim is about growth over all input sizes; a test sees one size, and the sizes tests use are fast.", "anchors": ["parser/src/iter.rs: Parse::parse", "parser/src/parser.rs: calc_error_rules"]}
{"id": "C83", "title": "When error recovery takes at most quadratic time", "statement": "Call the stack a place of recovery if an error rule could go on there with error. If no error symbol can follow another (ErrorsApart), places that share one error rule share all (ErrorsGrouped), and behind every completed phrase with such a place inside, where more of the enclosing rule is to come, there is such a place again or there is none further down the stack (Settled), then parse ends within C (n+1)^2 rounds on every input of n tokens, whatever the errors in it, for a constant C of the grammar only. A check of the rules is enough: every non-terminal with a place of recovery inside is a list X -> X error ... or X -> X I ..., I -> error ..., or stands at the end of every right-hand side it occurs in; no error can begin directly behind an error; all error rules are A -> alpha error .... The grammar of C82 meets all conditions but the last one (Settled), and with its helper S -> { L } written out in I -> S w ; it passes the check, so that the same language gets a quadratic bound; but error recovery then gives up on an input where it succeeded before. The exponent 2 cannot be improved: the grammar of C52 passes the check.", "quantifier": "all such grammars, all parsers made from them without warnings, all token types, callbacks and hash seeds, all inputs", "why_tests_cant": "A bound for all inputs of all grammars of a class; tests see single inputs of single grammars, and C82 shows that grammars that look alike behave differently.", "anchors": ["parser/src/iter.rs: Parse::parse", "parser/src/parser.rs: calc_error_rules"]}
{"id": "C84", "title": "Error recovery takes at most exponential time", "statement": "If no error symbol can follow another (ErrorsApart; without it parse need not end at all, C35) and new gives no warnings, there is a constant C of the grammar such that parse ends within C^(n+1) rounds, and so makes at most that many calls of callbacks, on every input of n tokens, whatever the errors in it, the callbacks and the hash seeds. For the grammar of C82 the number of calls lies between two exponentials for inputs of all sizes 5n+11, so no better kind of bound holds for all such grammars (a quadratic one holds under the conditions of C83).", "quantifier": "all such grammars, all parsers made from them without warnings, all token types, callbacks and hash seeds, all inputs", "why_tests_cant": "A bound for all inputs; that a parse with errors ends at all is seen by tests for single inputs only.", "anchors": ["parser/src/iter.rs: Parse::parse", "parser/src/parser.rs: calc_error_rules"]}
{"id": "C85", "title": "No token gets lost in error recovery", "statement": "Call a grammar traced if every phrase X in front of which an error rule can begin, and behind which the parser goes on reading without having made X part of a larger phrase, begins with a token (nothing at its left edge is empty or an error), or the same error rule can begin behind X or behind the next symbol as well. If the grammar is traced, then the value that a successful parse returns is the value of a tree of the grammar in which every single token of the input is a leaf or lies in an error slice, the leaves being in input order; so every token has been handed to some callback. This holds with conflicts too, for all callbacks. A check of the rules is given and proved right; the grammar of statements and blocks of C82 and the grammar of tests/main.rs pass it. The condition is needed: with P -> B x x | error, B -> error y the token 7 of 7 y x 8 vanishes, as the slice of a phrase that begins with error and is given up is forgotten, and with S -> E x y | error, E -> empty the token x of x z is handed to nobody.", "quantifier": "all such grammars, all parsers made from them (with or without warnings), all token types, callbacks and hash seeds, all inputs", "why_tests_cant": "That something is never dropped, over all erroneous inputs and all ways of recovering from them, cannot be read off from samples.", "anchors": ["parser/src/iter.rs: Parse::parse", "parser/src/parser.rs: calc_error_rules"]}
{"id": "C86", "title": "Error recovery keeps what has been read completely", "statement": "Say an input begins with a correct phrase X (for example a list of statements), followed by a token that can follow it, followed by anything whatsoever. If every error rule that can begin at the very beginning of the input can begin behind the X too (or behind a phrase that begins with the X, or behind the next symbol), then the callbacks of the phrase are called first, exactly as its tree says; if one of them fails, that is the result; and if parse succeeds, the returned value is the value of a tree that has the tree of the phrase unchanged at its left edge. So errors further on never destroy statements read before. For this a check of the rules is given and proved right, which lists of statements that grow to the left or to the right, nested blocks as in C82 and the sums of tests/main.rs pass. Both conditions are needed: e ; ? ; loses the correct statement e ; since ? cannot follow, and with an error rule for the whole input everything is given up.", "quantifier": "all such grammars, all parsers made from them without warnings, all token types, callbacks and hash seeds, all phrases and all inputs that begin with them", "why_tests_cant": "All continuations of all correct beginnings, with any errors in them; tests try a few continuations.", "anchors": ["parser/src/iter.rs: Parse::parse", "parser/src/parser.rs: calc_error_rules"]}
{"id": "C87", "title": "Tokenizers can be put together", "statement": "At each place of a text, the tokenizer built from two lists of patterns, one behind the other, takes the longer one of the two tokens that the tokenizers for the two lists alone take there, the one of the first list if they are equally long, and none if neither takes one. In the same way the patterns one by one decide: the token is the one that the tokenizer for a single pattern takes, if those for later patterns take no longer one and those for earlier patterns only shorter ones. So patterns added at the end change no token of a text as long as they make no longer token at a place where one begins; the first longer one is taken. A build succeeds exactly if it does for the parts, and its warnings are those of the parts, plus those between the last old and the first new pattern that match a common text.", "quantifier": "all lists of patterns, all hash seeds without a disturbing collision (C77; none of this is needed for builds and warnings), all item types, callbacks, closures and texts", "why_tests_cant": "How independent patterns interact on every text, over all pairs of tokenizers; a test compares a few tokens of one tokenizer.", "anchors": ["tokenizer/src/tokenizer.rs: TokenizerBuilder::build", "tokenizer/src/tokenizer/iter.rs: TokenizeIterator::next"]}
{"id": "C88", "title": "Callbacks that error recovery never undoes", "statement": "Error recovery can throw away values of callbacks already called, and read the same tokens again, so that callbacks with side effects may run for phrases that are not part of the result, or more than once. Let Q be a set of kinds of phrases, with every phrase that contains one of them. If an error rule that can begin somewhere before such a phrase can always begin behind it too (or behind the next symbol) when the parser has to go on reading behind it, then the callbacks of Q are called exactly once for each phrase of Q in the tree of the returned value, in this order, and for nothing else, whatever the errors in the input; at every moment, and if the parse fails, their calls are those of trees that stand side by side. If this holds for all phrases, the list of all calls is the evaluation of that tree. A check of the rules is given and proved right. In the grammar of tests/main.rs nothing is ever thrown away; in a grammar of statements, nested blocks and expressions no call for a statement is, while those for expressions are (a + ; calls E -> a in vain); with the rule I -> S w ; of C82 a statement in a block can get its callback called twice.", "quantifier": "all such grammars and sets Q, all parsers made from them (with or without warnings), all token types, callbacks and hash seeds, all inputs", "why_tests_cant": "Which calls are in vain depends on the errors in the input, and all inputs with all errors count; tests look at values, not at calls.", "anchors": ["parser/src/iter.rs: Parse::parse", "parser/src/parser.rs: calc_error_rules"]}
{"id": "C89", "title": "Recovery skips to the next token that may follow error", "statement": "Let an ordinary terminal follow directly behind every error in the rules (statements ending in error ; have this form). Then error recovery is panic mode: whenever an error symbol has just been put behind some symbols, the tokens in front of the first one that may follow error at this place are skipped, one per round and without calling any callback; the error slice then reaches exactly to the token in front of it, and the next round reads that token. If no such token comes, the rest of the input is read and parse returns RecoveryRuleNotFound, without a further callback; in particular an error at the end of the input is never recovered. In an input without any token that follows error in some rule, no callback ever gets an error slice. The condition is checked by looking at the rules; it holds for the usual statement grammars and not for tests/main.rs (F -> error).", "quantifier": "all such grammars, all parsers made from them, all token types, callbacks and hash seeds, all inputs, all states reached", "why_tests_cant": "Recovery is a loop that drops the error symbol again and again and consults the pending rules each time; tests show single inputs.", "anchors": ["parser/src/iter.rs: Parse::parse", "parser/src/parser.rs: calc_error_rules"]}
{"id": "C90", "title": "How far the tokenizer looks beyond a token", "statement": "Call K a bound of the look-ahead if, behind any matched text, at most K more characters can follow without a longer match coming up or all longer ones being ruled out. With such a bound, a call of next that returns a token looks at no more than K+1 items behind it, the iterator never keeps more than K+1 items between calls, and the closure of tokenize_with is called at most (K+2)n times for the tokens of n items (unless the empty text is a token). If K is no bound, some text makes the first call of next return a token and keep more than K items. Whether K is a bound can be read off the tables and, for patterns without empty character classes, is a matter of the patterns only (not of the hash seeds); and if there is any bound, the number of states minus one is one. For the patterns a and a*b there is none; for whole numbers and numbers with a fraction it is 1; the condition is weaker than that of C53.", "quantifier": "all pattern lists, callbacks, item types, closures giving characters, hash seeds, inputs, numbers of calls and bounds", "why_tests_cant": "Memory and running time depend on how the longest texts that stop short of a match interact with the queue; a test sees one text.", "anchors": ["tokenizer/src/tokenizer/iter.rs: TokenizeIterator::next", "tokenizer/src/dfa.rs: TokenizerDFA::minify"]}
{"id": "C91", "title": "Damaged parts of an input cost exactly themselves", "statement": "Let an ordinary terminal follow directly behind every error in the rules, and let the parser be made without warnings. Take a sentence with error in place of some phrases, at any depth, and replace each error by tokens that are wrong there: either the first of them is impossible at this place, or it is possible but the token behind them is not, and then nothing in them completes what began before or lets another error rule begin; none of them (but the first, in the second case) may follow error. What follows a phrase must be able to follow it, and behind an error nothing else of the same rule is damaged. Then parse returns exactly the value of the sentence with error in these places and the damaged tokens as slices: nothing correct is lost or changed, nothing wrong is skipped over. The callbacks for the sentence are called in its order; more may be called, for phrases inside of damaged parts, and if one of these fails, its error is the result. The slice of an empty part, and of a single possible token, has the token behind it in it too, which is read nevertheless. For statements a + ... + a ; and nested blocks this gives: whatever begins with a, is not an expression and has no ; { } in it may stand in place of any statements, and these and no others become error ;. Without the condition on what follows, correct statements are lost: a ; + ; a ; gives one error slice a ; +.", "quantifier": "all such grammars and sentences with error, all numbers and depths of damaged parts, all parsers made without warnings, all token types, callbacks and hash seeds", "why_tests_cant": "Recovery works on the stack as a whole, reads tokens twice and keeps a list of pending rules; that several errors in one input do not influence each other or what is around them takes an argument for all inputs.", "anchors": ["parser/src/iter.rs: Parse::parse", "parser/src/parser.rs: calc_error_rules"]}
{"id": "C92", "title": "White space, and reading what has been written", "statement": "Let no pattern match the empty text, let every word of a pattern consist of blanks or have none in it (blanks: any set of characters), let each blank be a word, and let the callbacks for words of blanks return None. Then two texts with the same parts between blanks, readable or not, have the same tokens after flatten(), and parse does the same on both: same result, same calls, same number of tokens read, same panics and endless runs. So blanks may be added or removed wherever there are some already, and at both ends. Words kept apart by blanks are read as these words. Words one behind the other with or without blanks are read as these words if no word of any pattern begins with one of them and the first character of the next, which can be seen in the tables (the state has no successor). So for a grammar without warnings, and without a cycle at the start symbol, every tree can be written down in this way, and parse makes the calls of this tree and returns its value. For the calculator the answer is the same whatever characters of no token are put in place of others. Blanks inside of words (a b as one word) or none where a word can go on (a a and aa) do change the tokens.", "quantifier": "all patterns, callbacks, grammars, trees, texts and hash seeds with these properties, also texts that are not covered by tokens or not accepted", "why_tests_cant": "Layout can be changed at every place of every text in endlessly many ways; tests fix a few.", "anchors": ["tokenizer/src/tokenizer/iter.rs: TokenizeIterator::next", "tokenizer/src/nfa.rs: TryFrom<Vec<Hir>> for TokenizerNFA", "parser/src/iter.rs: Parse::parse"]}
{"id": "C93", "title": "Errors and phrases can be found in the text", "statement": "For text.tokenize(&tokenizer).flatten().parse(&parser), where no pattern matches the empty text: every error slice that a callback gets stands for one part of the text, which begins with the first character of the first token of the slice and ends with the last character of its last token; between them are these tokens and tokens that flatten() dropped, nothing else. So if the items are characters with their places (char_indices, enumerate) and the tokens keep the place of their first and behind their last character, then the text between the place of the first token of a slice and the place behind its last one, tokenized alone, gives exactly the slice. Without error rules, in an accepted text every call of a callback is for a phrase that stands for one part of the text in the same sense (or for no tokens at all), and the right-hand side of its rule derives exactly these tokens.", "quantifier": "all patterns, texts, grammars, callbacks and hash seeds", "why_tests_cant": "Error slices are made from positions in a buffer of tokens that is also rewound; that they fit the text, with what is dropped in between, concerns all texts.", "anchors": ["tokenizer/src/tokenizer/iter.rs: TokenizeIterator::next", "parser/src/iter.rs: Parse::parse", "parser/src/parser.rs: calc_error_rules"]}
{"id": "C94", "title": "Parts of an input can be parsed on their own", "statement": "For a grammar without warnings whose start symbol does not derive itself: if an input consists of u, a part derived from the non-terminal A, and w, where the start symbol derives u A w, then the parser with start symbol A (of the same rules, also without warnings and not deriving itself; C72 says when there are none) parses the part alone in the same way: the calls of callbacks for the whole are calls that are the same for every such part, then exactly the calls for the part, then calls that depend only on the value of the part, as does the result. If a callback fails in the part, the whole fails with the same error after the same calls; or a callback fails already before the part. So parts with the same value can be exchanged without changing the result. Without error rules, in every accepted input each call of a callback is the last call of such a parse of one part alone, the calls of which come directly before it, and whose result is what the callback gives. The part must be derived from A at its place: 10 - 3 cannot be changed to 10 - 5 - 2, though 3 and 5 - 2 are equal expressions.", "quantifier": "all grammars without warnings, callbacks, inputs, parts and hash seeds", "why_tests_cant": "Tests can compare single parts with single inputs; that nothing around a part influences how it is read concerns all inputs and parts.", "anchors": ["parser/src/iter.rs: Parse::parse", "tokenizer/src/tokenizer/iter.rs: TokenizeIterator::next"]}
{"id": "C95", "title": "What an edit of a text can change", "statement": "If the tokenizer never reads more than K characters beyond the end of a token before it knows that the token cannot become longer, then tokens ending more than K characters before an edit stay exactly as they are, whatever is inserted, removed or replaced behind. For tokenizers without hash collisions and useless patterns this number is exact: if a tokenizer can read more than K characters ahead, there is a token that is changed by adding something more than K characters behind it. Behind an edit: if every token is all blank or all not blank (for any division of the characters into two kinds), then at every place where the two kinds meet a token ends, and behind such a place all calls of the tokenizer are the same after any edit before it, up to their number. For the parser: in a text that tokenizes and parses without warnings, a part standing for tokens derived from a non-terminal A at their place can be exchanged for any text standing for tokens that are derived from A and have the same value, and the result does not change.", "quantifier": "all pattern lists, texts, edits, grammars without warnings, callbacks and hash seeds", "why_tests_cant": "Tests apply single edits to single texts; that nothing before or behind some place is influenced concerns all texts and all edits.", "anchors": ["tokenizer/src/tokenizer.rs: TokenizerBuilder::build", "tokenizer/src/nfa.rs: TryFrom<Vec<Hir>> for TokenizerNFA", "tokenizer/src/tokenizer/iter.rs: TokenizeIterator::next", "parser/src/iter.rs: Parse::parse"]}
{"id": "C96", "title": "What tokens and values carry is only passed on", "statement": "Take two parsers with the same rules, for other types of tokens, values and errors, and say in any way which tokens (of the same enum index), which values of each non-terminal and which errors of the two correspond. If the callbacks of a rule do the corresponding on corresponding arguments that fit the rule (whatever they do on others), then on corresponding inputs both parsers make the same calls with corresponding arguments, take as many tokens, and end with corresponding results, or both panic or both run for ever, also in error recovery and whatever the hash seeds. So something may be added to the tokens (a place in the text) without changing anything for callbacks that do not look at it, and it does not matter whether a tree is built and then evaluated, or values are computed directly. The same for tokenizers: with the same patterns, items that correspond and stand for the same characters, and callbacks that give corresponding tokens for them, all calls of next have corresponding outcomes and leave corresponding items.", "quantifier": "all grammars, patterns, correspondences, callbacks, inputs and hash seeds", "why_tests_cant": "Tests run a parser with one type of tokens and one set of callbacks; that nothing depends on more than enum_index concerns all types, callbacks and inputs.", "anchors": ["parser/src/iter.rs: Parse::parse", "tokenizer/src/tokenizer/iter.rs: TokenizeIterator::next", "tokenizer/src/nfa.rs: TryFrom<Vec<Hir>> for TokenizerNFA"]}
{"id": "C97", "title": "Languages for which every grammar has warnings", "statement": "If LR1Parser::new has no warnings for some rules, then there is a finite list of languages such that every beginning of a sentence that is not the whole of it can be continued, within a sentence, to a point from which exactly the strings of one of these languages may follow. So whatever rules are written for the palindromes of two or more letters, or for those of even length, or for any other set of palindromes that has the latter, LR1Parser::new warns: rewriting such a grammar to get rid of the warnings cannot work. With a mark in the middle it does: S -> 0 S 0 | 1 S 1 | 2 has no warnings. Nothing is assumed about the rules: some may mention error, derive no tokens, or not be in reach.", "quantifier": "all grammars and hash seeds", "why_tests_cant": "No number of grammars that are tried shows that none exists; the claim is about all sets of rules for a language at once.", "anchors": ["parser/src/parser.rs: LR1Parser::new", "parser/src/parser.rs: calc_closure, calc_goto, calc_all_goto", "parser/src/parser.rs: calc_table"]}
{"id": "C98", "title": "The parser with error rules of the unit test, for every input", "statement": "For the rules of the unit test parse_error (sums, products, brackets and numbers, with error as a left operand of +, as both operands of +, and between brackets): LR1Parser::new succeeds without warnings. Every parse ends, the empty input included, without panic, so none of the unreachable!() in the callbacks of the test is reached. Input that is written for a value without error nodes gives exactly this value, different such values are written differently, and a value without error nodes is returned for no other input. Any other input gives a value with an error node or RecoveryRuleNotFound, and it is RecoveryRuleNotFound if the input has neither + nor ).", "quantifier": "all sequences of tokens and all hash seeds", "why_tests_cant": "The test has six inputs; which unreachable!() an input gets to, or whether recovery ends, depends on the whole of it.", "anchors": ["parser/src/iter.rs:230-321", "tokenizer/src/tokenizer/iter.rs: TokenizeIterator::next", "parser/src/parser.rs: LR1Parser::new"]}
{"id": "C99", "title": "Finite automata as rules", "statement": "Every deterministic finite automaton can be written as rules for LR1Parser::new without warnings in two ways. With left recursion (q' -> q a for an edge, nothing for the first state, S -> q for final states) the callbacks are called for the tokens from left to right, the result is the value the automaton computes on its way, and the stack of parse never has more than two entries, however long the input is, also for input that is wrong. With right recursion (q -> a q' for an edge, nothing for final states) the value is made from right to left, and the stack gets as high as the input is long, and one more. In both cases input that the automaton does not read gives RecoveryRuleNotFound. Edges and states that are not used can be left out, so this holds for every language with such an automaton; in particular for the texts for which a given pattern of a given tokenizer wins, with characters as tokens.", "quantifier": "all deterministic finite automata, callbacks, inputs and hash seeds; all tokenizers and patterns", "why_tests_cant": "Tests try a few grammars with inputs of a few lengths; that there are never warnings, and that memory does not depend on the length of the input, is about all of them.", "anchors": ["parser/src/parser.rs: LR1Parser::new", "tokenizer/src/tokenizer/iter.rs: TokenizeIterator::next", "parser/src/parser.rs: calc_table"]}
{"id": "C100", "title": "One table for each behaviour", "statement": "Two tokenizers that were built with TokenizerBuilder::build show the same on every text (accept index and stuck-ness) exactly if their tables are the same up to the numbers of the states: the same start, the same accept indices and, state by state, the same list of character ranges. So hash seeds can change nothing but these numbers, and if all patterns can match, how the patterns are written changes nothing else either: the tables are the same up to numbers exactly if the first matching pattern is the same for every text. Every other table that shows the same, however it was made, can be folded onto the built one, in exactly one way: states that cannot be reached are left out and states that do the same become one. For all hash seeds two ranges of a state that touch lead to different states. With a harmful hash collision (C08) two builds of the same patterns can differ in more than numbers.", "quantifier": "all pairs of pattern lists, all hash seeds without a harmful collision (for the ranges: all hash seeds), all competing tables", "why_tests_cant": "Quantifies over all pairs of pattern lists and all tables with the same behaviour; equality of behaviour is about infinitely many texts.", "anchors": ["tokenizer/src/tokenizer.rs: TokenizerBuilder::build", "tokenizer/src/dfa.rs: From<TokenizerNFA> for (TokenizerDFA, Vec<DFAConstructWarning>)", "tokenizer/src/dfa.rs: TokenizerDFA::minify"]}
{"id": "C101", "title": "Finitely many texts tell two tokenizers apart", "statement": "If for two tokenizers built with TokenizerBuilder::build the same pattern wins for every text that is shorter than the numbers of states of both together, then the same pattern wins for every text; likewise for where the tables are stuck; and likewise if only texts over some alphabet are looked at. The letters can be taken from the ends of the ranges in the two tables, so there are finitely many texts to look at. As a test: if two tokenizers have the same callbacks, whose tokens show which callback made them and how many items it got, and the first call of next gives the same for all inputs shorter than the numbers of states together, then all inputs give the same tokens. The bound is sharp: a{0,3} (four states) and a* (one) agree on all texts over a of length at most 3 and differ at aaaa.", "quantifier": "all pairs of pattern lists, all hash seeds (with or without collisions), all texts, alphabets, callbacks and inputs", "why_tests_cant": "It says which tests would settle the question; that they do is about all texts.", "anchors": ["tokenizer/src/tokenizer.rs: TokenizerBuilder::build", "tokenizer/src/dfa.rs: TokenizerDFA::minify", "tokenizer/src/tokenizer/iter.rs: TokenizeIterator::next", "tokenizer/src/tokenizer.rs: DFATokenizer::new, get_next_node, get_accept_index"]}
{"id": "C102", "title": "Long tokens can be made longer and shorter", "statement": "A text that has at least as many letters as the built tokenizer has states, and for which a pattern wins, has a nonempty part near its beginning that can be left out or repeated any number of times, and the same pattern still wins. So a pattern that ever wins, wins for a text (over the same letters) with fewer letters than there are states; without hash collisions, that is, whether a pattern is ever the first to match is seen at these short texts. The lengths of the tokens are bounded iff the number of states is a bound, and iff no pattern wins for a text with at least as many letters as there are states and fewer than twice as many. If a pattern makes one token of at least that many items, then it makes tokens of any length.", "quantifier": "all pattern lists, all hash seeds, all texts, alphabets and inputs", "why_tests_cant": "How long a token can get, and whether a pattern ever wins, is about all texts.", "anchors": ["tokenizer/src/tokenizer.rs: TokenizerBuilder::build", "tokenizer/src/dfa.rs: TokenizerDFA::minify", "tokenizer/src/tokenizer/iter.rs: TokenizeIterator::next", "tokenizer/src/tokenizer.rs: DFATokenizer::new, get_next_node, get_accept_index"]}
{"id": "C103", "title": "Nesting needs rules", "statement": "No tokenizer recognises balanced brackets: whatever the patterns, no pattern wins for exactly the balanced ones among the texts made of some a, a fixed middle part, and some b; and to do so up to depth N takes at least N states. (Among more texts than there are states and one, two are such that whatever comes behind them the same pattern wins.) A parser does it with two rules: for S -> ( S ) | a there are no warnings, the parser accepts exactly the inputs with as many opening as closing brackets, the callbacks can count them, and all other inputs give RecoveryRuleNotFound.", "quantifier": "all pattern lists, all hash seeds, all letters and middle parts, all depths; all inputs of the parser", "why_tests_cant": "That no patterns will do is about all patterns, and balanced texts can be as long as one likes.", "anchors": ["tokenizer/src/tokenizer.rs: TokenizerBuilder::build", "tokenizer/src/dfa.rs: TokenizerDFA::minify", "tokenizer/src/tokenizer.rs: DFATokenizer::new, get_next_node, get_accept_index", "parser/src/parser.rs: LR1Parser::new", "parser/src/parser.rs: calc_table", "parser/src/iter.rs: Parse::parse"]}
{"id": "C104", "title": "Patterns can say what automata can", "statement": "For every finite automaton that reads something there is a regex made of literals, concatenation, alternation, * and the empty regex that is supported by the builder, that is matched exactly (although the translation of loops is wrong in general), and whose language is what the automaton reads. So for every list of automata there are patterns for which the tokenizer can be built and the pattern of the first automaton that reads a text wins. And for every tokenizer (also one damaged by hash collisions) there are patterns, one for each pattern that ever wins, no two of which match a common text, that make the same tokens for all inputs: they are built without warnings. What one pattern matches and another one does not, and what two patterns match both, can be written as a pattern that is matched exactly, if there is any such text.", "quantifier": "all finite automata, all pattern lists, all hash seeds (without collisions for the new patterns), all inputs", "why_tests_cant": "The patterns must do the same for all texts.", "anchors": ["tokenizer/src/tokenizer.rs: TokenizerBuilder::build", "tokenizer/src/nfa.rs: TryFrom<HirKind> for NFA", "tokenizer/src/dfa.rs: From<TokenizerNFA> for (TokenizerDFA, Vec<DFAConstructWarning>)", "tokenizer/src/dfa.rs: TokenizerDFA::minify", "tokenizer/src/tokenizer/iter.rs: TokenizeIterator::next"]}
{"id": "C105", "title": "Short texts show how patterns are related", "statement": "If some text makes a pattern win in one tokenizer and a pattern win in another one, then so does a text over the same letters that has fewer letters than the product of the numbers of states. If some text makes a pattern win in one tokenizer and a given pattern not win in another one, then so does a text with fewer letters than the product of the number of states of the first and one more than that of the second. So whether build gives a warning, and whether one pattern matches all that another one matches, is settled by texts of bounded length: there is a warning iff two of the patterns, each with a tokenizer of its own, match a common text shorter than the product of the numbers of states of these two tokenizers. The bound is sharp: for a(aa)* (two states) and aa(aaa)* (three) the first common text has five letters.", "quantifier": "all pairs of pattern lists, all hash seeds (no collisions for the tokenizers of single patterns in the statement on warnings), all texts", "why_tests_cant": "It says which texts would settle the question; that they do is about all texts.", "anchors": ["tokenizer/src/tokenizer.rs: TokenizerBuilder::build", "tokenizer/src/dfa.rs: From<TokenizerNFA> for (TokenizerDFA, Vec<DFAConstructWarning>)", "tokenizer/src/dfa.rs: TokenizerDFA::minify", "tokenizer/src/tokenizer.rs: DFATokenizer::new, get_next_node, get_accept_index"]}
{"id": "C106", "title": "Long accepted inputs have parts that can be repeated, and three equal counts need callbacks", "statement": "For rules without warnings, error rules and failing callbacks let m be the number of different non-terminals with rules and k the length of the longest right-hand side (at least 1). An accepted input of more than k to the m tokens has two parts, not both empty, which can be left out together or repeated together any number of times, and parse still gives Ok. So a parser that accepts anything accepts an input of at most k to the m tokens (which is a given accepted input with tokens left out), and accepted inputs get arbitrarily long just if one longer than that is accepted. The bound is sharp: for every m there are m rules with two symbols each that accept 2 to the m tokens of one kind and nothing else. No such rules make a parser that accepts exactly the inputs aa...a bb...b cc...c with three equal counts. Callbacks can: for any property of token lists there are five rules without warnings whose parser returns, for each input over three kinds of tokens, whether the input has the property.", "quantifier": "all rule lists without warnings, error rules and failing callbacks, all hash seeds, all inputs, all numbers of repetitions", "why_tests_cant": "The claims are about infinitely many inputs, and about all possible rules.", "anchors": ["parser/src/parser.rs: LR1Parser::new", "parser/src/iter.rs: Parse::parse", "parser/src/parser.rs: calc_table"]}
{"id": "C107", "title": "Beginnings of inputs can be completed with few tokens", "statement": "For rules without warnings, error rules and failing callbacks let m be the number of different non-terminals with rules and k the length of the longest right-hand side (at least 1). If an input is accepted then behind any beginning of n tokens tokens can be left out until at most k^(m+1) * m * (n+1) remain there, and parse still gives Ok. When parse gives up with an error, what was read before the offending token (or, at the end of the input, the whole input) is the beginning of an accepted input with at most that many further tokens. The bound has to grow with n: after n opening brackets all accepted inputs have n more tokens.", "quantifier": "all rule lists without warnings, error rules and failing callbacks (in the second claim every reachable non-terminal derives some tokens), all hash seeds, all inputs and beginnings", "why_tests_cant": "That a completion exists and is short is a claim about infinitely many inputs and all rules.", "anchors": ["parser/src/parser.rs: LR1Parser::new", "parser/src/iter.rs: Parse::parse"]}
{"id": "C108", "title": "A last check of the value", "statement": "Let the start symbol occur on no right-hand side and let the callbacks of its rules end with a further step that may replace the value or refuse it. Without warnings and error rules, parse then gives Ok exactly with what this step makes of the values the parser without it gives; a refused value gives the error of the step; and an error of an earlier callback stays the same for inputs that are sentences. The calls of callbacks are the same in all cases. So for any property of lists of three kinds of tokens there are rules without warnings with which parse accepts exactly the inputs that have the property and gives an error of a callback for the others, for instance aa...a bb...b cc...c with three equal counts, for which C106 says that failing callbacks are needed.", "quantifier": "all rule lists without warnings and error rules whose start symbol occurs on no right-hand side, all steps, all hash seeds, all inputs", "why_tests_cant": "The claim is about all rules, all inputs and all checks.", "anchors": ["parser/src/iter.rs: Parse::parse", "parser/src/parser.rs: LR1Parser::new"]}
{"id": "C109", "title": "Printing the ranges of a table", "statement": "In builds with overflow checks, Debug for CharRange panics for reversed ranges and for 0..0 and for no others, so it never panics for a range in the tables of a tokenizer that TokenizerBuilder::build returned. For ranges that begin and end with characters the text shows the first and the last character, one character if they are the same, and different ranges have different texts. This fails for ranges that begin or end in the gap of the code points: there are patterns whose tokenizer has two different ranges with the same text in its tables.", "quantifier": "all ranges; all pattern lists and hash seeds for the tables", "why_tests_cant": "The claim is about all ranges and the tables for all patterns.", "anchors": ["tokenizer/src/lib.rs: Debug for CharRange", "tokenizer/src/tokenizer.rs: TokenizerBuilder::build"]}
{"id": "C110", "title": "What an error of parse tells", "statement": "If parse gives an error, it has a source exactly if a callback failed. The source is then the error of the last call of a callback, the text of the error is the text of the source, and all earlier calls succeeded; without a source all calls succeeded. The source determines the error. The text does not: a callback can give an error with the text that parse uses when it finds no recovery rule.", "quantifier": "all rule lists accepted by LR1Parser::new, all hash seeds, all inputs, all ways to print errors of callbacks", "why_tests_cant": "The claim is about all rules, inputs and callbacks.", "anchors": ["parser/src/iter.rs: Display for ParseError, Error for ParseError", "parser/src/iter.rs: Parse::parse"]}

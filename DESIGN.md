# Formal model of google-research/mozolm (C++) in Lean 4

## Trusted base

* Lean 4.33.0's kernel. Axioms: at most `propext`, `Classical.choice`, `Quot.sound`
  (checked with `#print axioms`; no own axioms, no compiled evaluation in proofs).
* The reading of /repo: every model definition cites the file and lines it models.
* Third-party behaviour taken as a contract (not in /repo): OpenFst (VectorFst, Matcher, SymbolTable,
  ArcSort, Relabel), OpenGrm SFst (`NegLogSum`, `NegLogDiff`, `IsCanonical`, `IsNormalized`, `MaxOrder`),
  OpenGrm NGram (`NGramCounter`), Abseil (`flat_hash_map`, `Mutex`, `Notification`, `Status`,
  `Uniform`), nisaba UTF-8 helpers, gRPC completion queues and credentials, protobuf, `std::sort`
  (any sorted permutation), `std::getline`/`std::stol`-style number parsing.
* Not modelled: floating-point rounding and overflow except in C88 and C91–C93 (see Arithmetic), 32-bit wrap of `int` counters
  (cache access counters, but see C90 and C94; PPM orders), saturation of `float` counts (but see C113), memory allocation, logging,
  wall-clock time, network transport, weak memory (threads are sequentially consistent).

## Arithmetic

C++ uses `double`/`float` both for plain numbers and for negative-log costs. The model is generic
in an `Arith` record (`Verif/Arith.lean`): a type `C` of costs and a type `D` of plain doubles with
the operations the code uses. Structural theorems (tables, caches, state ids, ranges) are proved
for *every* `Arith`, hence also for IEEE arithmetic with rounding. Numeric theorems are proved for
`Arith.xr`, exact real arithmetic with IEEE's special values (`fin r | pinf | ninf | nan`,
`log 0 = -inf`, `inf - inf = nan`): what is missing there is rounding only. `Arith.unit` (one cost,
one number) and `Arith.lin` (`exp(-cost)` as a rational) are computable and serve for witnesses.

Rounding itself is in C88: `Rounding φ ε δ` (`Verif/Rounding.lean`) is any arithmetic whose operations on
costs are exact within `ε`, those on plain numbers within the factor `1 ± δ`, or give `NaN` (a raised flag;
only if `φ`). What is idealised there: `NegLogSum` and `NegLogDiff` are one operation each, comparisons
are exact, and the error of an operation on costs is absolute (so a bound on the size of costs is built in).
The accuracy of the PPM model with rounding is in C91, that of the character n-gram model in C92, that of a server
over them and bigram models in C93; that of the word model is not bounded, only that its probabilities still add up to one.

Undefined behaviour and uncaught exceptions are distinct outcomes: fallible functions return
`Except Fault _` with `Fault.ub` (out-of-bounds access, empty `back()`...), `Fault.thrown`,
`Fault.fuel` (recursion did not end within the given depth). A theorem that a call returns `.ok`
therefore says that none of these happens.

## Modules

* `Verif/Arith.lean`, `Verif/XR.lean` – arithmetic. `Verif/Fst.lean` – automata and symbol tables.
* `Verif/<Component>/Model.lean` – the model, function by function, with citations.
* `Verif/<Component>/Spec.lean`, `NumSpec.lean`, ... – small independent specifications.
* other files in `Verif/<Component>/` – helper lemmas and invariants.
* `Verif/Props/<Component>*.lean` – the property theorems (named `Cnn_...`), non-vacuity examples and
  refutations (`Cnn_..._false`) of the claims the code does not satisfy.

| component | code | modelled | not modelled |
|---|---|---|---|
| Hub | language_model_hub.{h,cc} | all functions | — |
| Scores | language_model.cc | all functions | — |
| Bigram | simple_bigram_char_model.{h,cc} | all functions; files as bytes; both locks, every interleaving | `double` normaliser is an integer |
| Ppm | ppm_as_fst_model.{h,cc} | Read (vocabulary, text and FST file), all public functions, cache, updates; see "PPM" | see "PPM" |
| NGram | ngram_fst_model.{h,cc}, ngram_char_fst_model.{h,cc} | all functions | OpenGrm checks are parameters |
| Word | ngram_word_fst_model.{h,cc} | all functions | Kahan compensation |
| Server | server_async_impl.{h,cc} | handlers; call objects, queue, start, shutdown | — |
| Client | client_helper.cc, client_async_impl.cc | RandGen, OneKbestSample, bits per character, requests | completion queue of the client |
| Config | server_helper.cc, *_main.cc, model_factory.cc, client_helper.cc | decisions over configuration records | flag parsing, file contents |
| System | model_factory.cc, server_async_main.cc:175-189 and the virtual calls of language_model.h | the hub over the four component models, behind the handlers; loading them from named files and the server program (`System/Startup.lean`) | the file system and the file formats of OpenFst (functions of the file name) |
| Session, JavaLearning | java client example (VocabOnlyModelClientExample: run, updateModel, getProbs) | requests over a text of UTF-16 code units, the estimates shown | channel set-up, log format; how protobuf-java encodes a lone surrogate (`?`) is assumed |
| Example | java client example (SimpleClientExample) | run, getTopCandidates, ProbComparator | channel set-up, log format, signed zeros |
| Program | client_async_main.cc, client_helper.cc (RunClient, Init), client_async_impl.cc (MakeClientContext) | which job is run, where, with which deadline; output and exit code | flag parsing, number formats, int overflow of the character counts, what gRPC does at the deadline |
| Relabel | ngram_fst_relabel.cc, ngram_fst_relabel_main.cc | all functions, exit code and file written | file formats, flag parsing |

## Plan per property

| id | model and proof |
|---|---|
| C01 | Hub generic over component models (`LMOps σ`), all accesses checked (`Fault.ub`). Invariant by induction over the list of API calls. |
| C02 | Invariant "edge (c,k) implies sym k = c", needs the FIFO age order of recycling (`before`): a parent is recycled before its children. |
| C03 | From C01's invariant: after NextState the edge exists. |
| C04 | Static components (`view` preserved by all operations); induction over the context. Ghost flag `selfRecycled` marks histories in which the state being extended was the one recycled. |
| C05 | Two invariants over all histories: `WeaklyLinked` (edge (c,k) from i: prev k = i or none) and, without self-recycle, `prev k = i`; `C05_room_suffices` bounds histories by their number of symbols; `C05_false` exhibits the self-loop for max = 10. |
| C06 | Invariant. |
| C07 | Fold lemma on `contextState`. |
| C08 | Case analysis plus invariant; with history length > 0 the model yields `Fault.ub` for negative and too large ids (proved). |
| C09, C10, C11, C12, C45 | `Arith.xr`: `prob` is a homomorphism from costs to reals; sums over lists. |
| C13 | Invariant over hub histories without self-recycling; generic arithmetic. |
| C14, C28 | Direct from the models (hub, bigram, PPM, FST). |
| C15–C18 | Bigram state machine, induction over operations; counts are unbounded `Int` (int64 overflow stated as a guard: `Fault.ub`). |
| C19 | File = bytes; outcomes ok/err/ub/thrown; acceptance iff (`Spec.lean`) and crash iff (`Crashes`), hence refusal in all other cases. |
| C20 | Index tables. |
| C21 | Small-step interleaving model of threads with two reader/writer locks; invariants over all schedules; linearisation by the order of lock acquisition. |
| C22, C27 | PPM update on the count automaton; induction on the backoff chain. |
| C23 | Spec: the header's formula as the relation `Prob`; the cached vector equals it at `Arith.xr`. |
| C24, C25 | Spec: relation `Fresh fst s v` (value computed with no cache). Invariant: an entry is fresh or a cached lower-order entry is newer, and then that entry was accessed later (so LRU evicts the stale one first). |
| C26 | Topology invariant (orders, backoff order = order-1, arcs ascend or stay). |
| C29 | Invariant over `GetState` histories. |
| C30 | Proved without `<unk>`; what holds with it (`C30_unknown`) and a refutation. |
| C31, C63 | Sorted lists of strings, contiguity of prefixes; typing characters is refinement of a specification over the typed text. |
| C70 | Loop lemmas on `extractLoop`. |
| C71 | Invariant on the threads' remaining programs over all schedules. |
| C72 | `closedOn`: each component's invariant is kept by every call at every state it ever returned; hub calls only pass such states (`reach_own`), so the hub over the components runs like one over guarded, total components, to which C01, C70, C37 apply. |
| C73 | Each component's states stand for texts (`den`; word model: for places in the vocabulary, as its ids depend on the order of requests); answers depend on the text only (`Traces`). The hub's states then stand for texts as well (`context_holds`), also the history weights; updates with count 0 and of static models change nothing. Two reachable hubs are compared through the text (`same_answer`). |
| C74 | `alone`/`aloneScore`: a component threaded through `next` for the text from its start state, then asked (`System/Alone.lean`, no hub involved). By the `den` invariants of C73 they equal what the component answers at the hub's state; the hub's history rows are then the component's own per-character costs, so C09/C12's weights and mixture formulas apply (`Hub/Answer.lean`, `context_weights`, `answer_mixture`). `C74_trained` composes with C67-C69: training text to reply. |
| C75 | `historyLoop_refresh` (`Hub/Refresh.lean`): along a cached path the loop recomputes exactly the successors of the states passed, later recomputations do not undo earlier ones because a successor is younger than its predecessor in the ring (`turnsLeft_edge`); `update_refresh` carries this past the counts and the verification. `C75_text` composes the steps by induction on the beginning of the text, using that queries do not change a component's costs (`LMOps.Steady`, proved for the components in `System/Steady.lean`); the start state's history is constant (`freshStart_preserved`). Weights: `weights_of_sums`, shared with C74. |
| C76 | `Memory` (`Ppm/MemorySpec.lean`) is the table, without automaton: `observe`, `learn`, `longest`, `Prob`; `Call`, `runCalls`, `Memory.uses` (`Ppm/Calls.lean`) are the uses and what they do to it. `Holds` relates an automaton to a table; `Holds.observe` (`Ppm/Memory.lean`): one observation of the automaton is one of the table, using what `Observed` says of every state created or changed; `Ppm/MemoryRun.lean` lifts this to `UpdateLMCounts`, `GetNegLogProbs` and `NextState` (the next state is the longest known context), `Props/PpmMemory.lean` to all histories (`C76_history`), with the probabilities of C23. The initial tables (`C76_text`, `C76_vocabulary`) from C67 and the shape of a fresh automaton. `C76_asking`: asking leaves no trace. |
| C77 | `System/MemorySpec.lean` says what requests do to the table of C76 and what the replies should be (`Learns`, `Taught`, `Tells`, `AsksWell`, `TeachesWell`). `Ready` (`System/LearningServer.lean`): the component holds the table, hub entry 0 is its start state, every entry refers to a context that the entry's text ends with (`Hub/Origin.lean`, `Stems`). An update walks a path in the state table, learns at the named context and `verifyLoop_points` (`Hub/Points.lean`) brings the states along the path to the longest contexts. Induction over requests: `C77_memory`, `C77_strings`, `C77_server`; `C77_room` gives the room. |
| C78 | `updateModel` (`System/Session.lean`) models the client; induction over the text with `Ready.turn`: after each update the state for the next character is cached and named by the longest context of the text so far (`Memory.learnt_longest`, `Ppm/Session.lean`: learning after the longest context does not make a longer one of the rest known). `Memory.learn_spelled`: one character at a time is the whole text at once. |
| C79 | `Server/DirectorySpec.lean` is the directory of texts (first visits in order); `Indexed` (Hub/Directory.lean): slot i holds the i-th text and its transitions lead to the texts one symbol longer. `NextState` with room keeps it (`NextOut.indexed`, from `created_other`/`created_new`), hence walks, updates (history and verification keep the transitions) and any history of requests. Any components. Refuted without room (`C79_full`). |
| C80 | `System/BookSpec.lean` is the book (`Book.turn/read/count/serve/says`). `Booked` (`System/Book.lean`): the directory of C79 holds of the texts of the pages and the component state cached for each text is the state of its page's context. Walks and updates keep it: off the updated path neither transitions nor model states change (`Hub/Pages.lean`), on it they get the longest contexts (C77). Induction over requests with `Ready` of C77. `C80_asking_false` evaluates the book on two histories. |
| C81 | `System/Client.lean` puts the client of C40-C46 in front of the handlers (`service`: one client at a time, perfect transport, the random numbers given in advance). `System/CodeSpec.lean` says what a file should cost. `Sitting` (`System/Sitting.lean`): the server was reached by some history and is `Ready` (C77); `Sitting.dest`/`Sitting.scores` give one client step, with the listing of `System/Listing.lean` (the probability the client finds for a symbol in the sorted pairs is the memory's). Induction over line and file; completion from `C72_service`; `Further` counts the symbols sent for the room (`C77_room`). |
| C82 | `System/ChanceSpec.lean`: `Drawn` (probability of characters one after the other while learnt), `uniforms` (infinite product of uniform measures). `Tells.draw` (`System/Drawing.lean`): the numbers that pick a symbol from the sorted listing form a measurable set of exactly its probability (C41). `Stage` (`System/Generating.lean`) is the client at a state with the scores of a context and room; requests draw no numbers (`dest_random`), so the hub after some characters does not depend on the numbers; hence the set of number sequences giving a text is a box (`Stage.begins`, induction over the text; prefix-free encodings make the text determine the characters), whose measure is the product. `Stage.outcome`: every run, by induction on the loop. |
| C83 | `Likeliest` (`System/ChanceSpec.lean`). The reply is that of `Ready.asks` (C77), `Tells.likeliest` takes the first k of the sorted listing. |
| C84 | `System/PairSpec.lean`: tables of pairs (`Pairs`), counting a text (`pairsOf`, `Pairs.add`), replies (`Pairs.reply`), what requests do (`Adds`, `Counted`). `HoldsPairs` relates the model to a table (`System/Pairs.lean`, with `Bigram.updateLoop_spec` of C17). `Rows`: the component's state in every hub entry is that of the entry's character, an invariant of every hub operation (`rows_preserved`); `Tallied` (`System/PairsServer.lean`) is kept by every request, with the path argument of C77 while there is room. Induction over requests in `Props/SystemPairs.lean`; concrete server in `Props/SystemPairsDemo.lean`. |
| C85 | `Server/Service.lean`: the machine of C38 with the handlers run on the one hub at the handling step, clients that send, get and fail, and the log of what happened. `Server/ServiceSpec.lean`: `Explains`, a serial order of the handled requests (linearizability). Invariant `WInv` over all steps (tickets and call objects correspond one to one, a ticket is handled iff its object was answered, the log is causally ordered, the handled requests replay to the hub). `effort` decreases with every step of the server by itself; at rest nothing is waiting (`rest_taken`). `C85_reach` gives `Server.Reach`, so C72–C84 hold of the hub of every schedule. Histories with overlapping clients, a lost answer and a shutdown: `Props/ServiceDemo.lean`. |
| C86 | C85 with the tables of C84: counting whole texts is adding, in any order (`strings_plus`), so the table is the initial one plus the gains of the handled requests; the replies by the prefix of the order before the question. `C86_failed_false` is a concrete schedule in which a failed call is counted. |
| C87 | The order of C85 without hub and answers (`Linear`), with `C79_directory` and `C80_replies` at each place of it; the directory of a prefix is a prefix of the directory, so ids stay. |
| C88 | `Rounding φ ε δ`: any operations within ε (costs) and 1 ± δ (plain numbers) of the exact ones, `NaN` for a raised flag (only if `φ`). Error lemmas per operation (`CostNear`, `ValueNear`, errors of logarithms), then inductions over the loops of the hub as for C09-C12; for the server the shape of every reply (`Shares`: shares of a total, of costs or of counts) and the sum of rounded shares. Instances with 53 bits in `Verif/Binary64.lean`. |
| C89 | `writeFst` (Ppm/Save.lean) sorts the live automaton and gives the file. `Shuffle`/`FstLike`: automata equal up to the order of arcs; every function of the model is shown to give the same answers and again such automata (`Lock` lemmas in Ppm/Alike.lean, with the caches by the uncached form of C27), then induction over histories with saves (`SavedRun`). Reopening: orders and the maximal order are determined by the backoffs (`ord_unique`, `Limit.unique`). |
| C90 | Accounting (`Ticks`, Ppm/Ticks.lean) over every function of the PPM model: what it adds to the counter, at most and (`Clicks`) at least. |
| C91 | `Twin`: a lock-step relation between the model in two arithmetics (`Ppm/Twin.lean`; control flow never depends on the rounding as long as `beta` is below every count), used with `Rounding` against exact arithmetic; error of a context's costs by induction down its shorter contexts (`ideal_near`, Ppm/Accuracy.lean), including the subtraction `count - beta` and the renormalization; then by induction over a history, whose observations bound the totals (`run_near`, `run_amount`). |
| C92 | The model in both arithmetics side by side (`Both`, `CostTwin`, `ScoresTwin`, Verif/TwinSpec.lean): induction over the backoff path for a cost, `softmax_twin` for the shares. The assumptions on the automaton (`Deep`, `Ends`) are in NGram/AccuracySpec.lean. |
| C93 | Both servers side by side: a relation between components taught `k` times (`LMOps.Pair`, Hub/TandemSpec.lean), lifted to hubs (`HubTwin`: same states and next-state tables, histories and weights within bounds) and through every handler (Server/Tandem.lean); the components are related in System/Tandem.lean by C91, C92 and the bigram rows. A value that is undefined without rounding constrains nothing (`NumMatch`, Verif/MatchSpec.lean); what the server without rounding answers is the subject of the other claims. |
| C94 | Accounting over the functions of the word model (Word/Ticks.lean), with the cache invariant of C33: a filled state is a hit for the rest of the call. Depth of backoff from walks (`Depth`), turned into a ranking. |
| C95 | Prefix states have different keys (C29) and keys come from a finite product: an injection into `Option (Fin N × Fin L × Fin V)`. |
| C96 | `System/PairCodeSpec.lean`: coding with a table of pairs (`PairsCoded`, `PairsCodedFile`), on the tables of C84. The client of C40 in front of the server as in C81; each step of the client is one of the server by `Tallied.names`, `Tallied.taught` (the strengthened C84: a request of one character at a state is counted after that state's character even without spare room), the log by `charBits`. `C96_learnt`: the table afterwards is that of counting the lines; `C96_unique`: the specification determines the number; `C96_ends`: how many are unknown. |
| C97 | `System/OfferedSpec.lean`: what the server's handlers reply along the symbols (`Offered`, `Opened`, `Proper`), nothing about models. By induction on the symbols there is a box of random numbers in which exactly these symbols are drawn (`Offered.begins`; outside it the text differs because symbols do not begin one another), its measure by `C41_proportional` and the product measure. |
| C98 | `System/PairChanceSpec.lean` (`PairsDrawn`, `Ending`, `PairsLikeliest`); the bigram server offers the characters with their shares (`PairSitting.offers`, by the strengthened C84), then C97. |
| C99 | No new model. `Indexed` of `Hub/Directory.lean` (the hub's states are the directory of C79) gives the text of every state; without learning (`Fixed`) a component's reply depends on the text walked only (C75), so that walking on from the state is walking from the start. |
| C100 | `System/WeighedSpec.lean` (`Replies`, `Weighed`): fresh replies to whole texts. C99 along the symbols, C79 for the states handed out, then C97. `replies_alone`: with one model in use the fresh reply is what that model says by itself (C74). |
| C101 | `NGram/TextSpec.lean`: what a label is worth at a state (`Worth`), its share, where a text leads (`Moves`), from the automaton and its table alone. The searches of C34 meet it (`worth_cost`, `step_next`; uniqueness of the first state with a label), the reply is the list of shares (C35), then C100. |
| C102 | `Word/TextSpec.lean`: what follows letters (`Follows`) and how probable words are (`Sentence`), from the automaton and vocabulary alone. States stand for places (C31), the reply at a place is C32's marginals; the marginals telescope along a word (`weighed_letters`), words chain (`weighed_words`), then C100. |
| C103 | `System/MeasuredSpec.lean`: the figure from a fresh server's replies (`MeasuredFile`), from a character automaton (`MeteredFile`), from a word automaton (`KeyedFile`). Each request of the measurement gets a fresh server's reply (C99); induction over the line, then the file. Failure: an update whose reply has no probabilities ends the measurement. Existence for every file with a character model (`C103_char_total`). |
| C104 | `System/TogetherSpec.lean`: the configuration of a server with one model (`solo`), when a server answers, refuses, directs to an id, and what mixing replies means (`Mixes`). A simulation (`Hub/Shadow.lean`): the hub with one model has the same state table, whose model state is matched by that of the component; next, walks, updates, the recycling keep it (`Server/Shadow.lean` for requests). Copies of a model asked different things may differ in caches and in the numbers of implicit states: `System/Mates.lean`. The weighted average then is C12. |
| C105 | `System/Example.lean`: the example's methods over the handlers, with `Double.compare` on `Arith.xr`; `System/ExampleSpec.lean`: `Ranked`. Stability of merge sort; replies have as many symbols as probabilities (hub, all components); C72 for totality, C73 for a fresh server, C84 for bigram models. |
| C106 | `Client/Program.lean`: `RunClient` and `main` over the models of the three jobs, with the servers that can be connected to as a function of address, credentials and deadline; number formats are parameters. `Client/ProgramSpec.lean`: `Waits`, the lines printed. Case analysis; truncation on reals; composed with C81 and C83. |
| C107 | Relabelled automata now with weights, read by the model of `NGramFstModel::Read`; `NGram/Rename.lean`: an injective renaming of labels that fixes epsilon and -1 commutes with every function of the character model, whatever the order of arcs; relabelling is such a renaming (C46). The lossy table is the second reading of `RelabelSymbolTable`. Server level by C108. |
| C108 | `Hub/MimicSpec.lean`: two sets of component functions that answer alike under a relation. Every hub function and handler preserves `Like` and gives equal results (`Hub/Mimic.lean`), by induction over the loops. |
| C109 | `System/Startup.lean`: the `Read` functions of the four classes on named files (`Disk`), `MakeModel`, `MakeModelHub` and `main` composed; `System/StartupSpec.lean`: `Loads`/`Refuses`/`Kills` say what a reader makes of a model's files, `Fine` which files are in order. Three equivalences by case analysis and induction over the models (`C109_serves`, `C109_exits`, `C109_dies`); `C109_service` by C19, C64, the PPM readers (C67 for texts), then C72 and C85. |
| C110 | No new model: `serverMain` (C109) and `clientMain` (C106) composed. `TextServer` (Props/Programs.lean) collects what is asked of configuration and files. `TextServer.learner`: the loaded model is a `Learner` whose memory is the text's (C76); then C106's theorems for learners, for every history. Memory, its use and the cost of a file (`Memory.ofText`, `Taught`, `CodedFile`, `Likeliest`) are the specifications of C76, C80 and C81. |
| C111 | `runLearning` (System/JavaLearning.lean) follows `run`, `updateModel` and `getProbs` of the example on UTF-16 code units. Assumption on protobuf-java: a lone surrogate is sent as `?`. `C111_characters`: by induction over the code points, the loop is a `Session` (an inductive relation of the specification) over `lessonsOf` of each character. `C111_completes`: C72's liveness. `C111_run`: C80's sessions between three queries. `C111_vocabulary`: the memory's counts of the two shortest contexts (`Ppm/Unigram.lean`, invariant `Paired`: the count of `y` in the empty context is 1 + the number of different symbols before `y`), put into the PPM formula. |
| C112 | No new model. `Made` (Ppm/Teaching.lean) says what a memory holds after a sequence of positions of a text: contexts are the beginnings of what precedes a position, the count of a symbol in a context that cannot be longer is its number of occurrences, in any other the number of different symbols before it. Invariant of observing one symbol (update exclusion counts the context and its shorter contexts down to the longest one where the symbol was counted), then of lines, then `Memory.ofText`, which C67 and C76 show to be what training makes. Symbols: both ways of reading number new characters in order (`withChars`). Server: pages of C80's book for texts taught have contexts of full length, which no later lesson changes (`Deep`), so every reply is after the longest context known. Counts: observing a position again keeps `Made` of the positions with it once more (`Made.again`), and `Made` depends on the positions up to order, so a line taught n times at once leaves what n copies of it leave. |
| C113 | No new model: the PPM model is generic in the arithmetic, and C27 says what a lesson does to counts in any. Counts reached from one by adding one satisfy `CountLaws`, so well-formedness (C26) carries them through any history. `gridArith g`: exact arithmetic except that sums of counts are rounded to multiples of `g` (a simplification: the spacing of floats grows with the exponent). There the steps of counting are integers that never increase and are bounded below, as the step of a cost below `log(e^(g/2) - 1)` rounds to nothing. `roundArith rnd`: sums of counts are rounded by any monotone `rnd` (as float rounding is; the double rounding of `NegLogSum` itself is left out): a cost that counting cannot pass bounds all counts, by monotonicity; `C113_float` exhibits -15. The totals on backoff arcs are reached from one as well (induction over the observations of a history), in a model read from a vocabulary or any automaton whose totals are; a lesson of more than `N` adds at least `N` ones to the total of its context. That a further lesson cannot be noticed (`C113_still`): counts, totals, destinations and contexts stay the same by what C26/C27's observations do, the order of arcs by `Grows`; the automaton is then the same, and C89's `Alike` gives the same answers. |
| C32 | Telescoping sums over the cumulative weights; `Marginals` specification over words. |
| C33, C66 | Cache invariant: every entry equals the value computed from the automaton; times of use distinct. |
| C34–C36 | Automaton with acyclic backoff, matcher contract of OpenFst including label 0 / -1. |
| C37, C49, C51, C52 | Handlers over the hub model; int64→int conversion as `Int.bmod 2^32`. `turnsLeft` = number of creations until a state is overwritten, a function of its position in the recycling order. |
| C38–C40 | Transition system: call objects, pending counter, notification, queue; invariants over all schedules. |
| C41–C44, C50, C57 | Pure functions over lists; server behaviour a parameter. `std::sort` is modelled by any sorted permutation. C41: Lebesgue measure of the thresholds. |
| C46 | Mapping function; injectivity under stated condition; refutation. |
| C47, C48, C53, C58 | Decision logic over configuration records; C58 by induction over helper calls. |
| C54, C55 | Generic component; invariants over request histories. |
| C56 | Measure decreasing at every step once the flag is set, and a progress invariant (a driver thread exists until the queue is shut; a stopping thread exists from flag to queue shutdown). |
| C59, C60, C64 | `Read` of the n-gram models as a decision over what was read; exact acceptance condition. |
| C61, C62 | Corollaries of C23's formula: uniqueness of `Prob`, monotonicity along the backoff chain. |
| C65 | Case analysis and a concrete counterexample. |
| C67 | Model of `TrainFromText`, `CalculateUpdateExclusions`, `AddPriorCounts` over exact arithmetic; the OpenGrm counter by contract (`CounterOk`). Closed form of the exclusion loops by invariants, then a description per context (`Trained`). |
| C68 | C23's relation on a trained automaton implies the formula over the text (`TextProb`). |
| C69 | Induction over the backoff search (`Origin`) and over the typed text. |

## Notes per component

* **Hub**: components are total functions on an abstract state `σ`. Hash-map iteration order is a
  parameter. The ghost `selfRecycled` is observable: `NextState` answered the id it was given although the
  transition was not cached.
* **System**: a component whose call fails becomes `crashed` (or, for the `int64_t` counts of a bigram model,
  `overflow`) and answers nothing more; C72 shows that `crashed` is never reached. Loops along backoff arcs get
  `fuel` steps; any fuel above a bound that depends only on the loaded models suffices.
* **PPM**: all theorems but C67–C69 start from an arbitrary well-formed automaton (`WF`), which training
  (C67) yields. OpenGrm's n-gram counter is not in /repo and enters training as any function meeting
  `CounterOk`; `PpmTrainDemo.lean` constructs one, so the contract is satisfiable. Training is modelled over
  exact arithmetic. An empty vocabulary is excluded (undefined behaviour in `GetBackoffState`).
* **Word**: a `Str` is the list of code points; byte order of UTF-8 is code point order. `<unk>` must be
  absent or the last label for the prefix theorems (the code overwrites an entry of the order table
  otherwise), words contain no space.
* **NGram**: the matcher contract: label 0 also matches the implicit self-loop, label -1 matches the
  actual epsilon arc.
* **Relabel**: `Relabel` maps every label by the given pairs; whether symbols without a pair stay in the
  table is left open (C107 says what depends on it).
* **Client**: server, network and random source are one arbitrary state machine; every RPC is recorded in
  a transcript no code reads.
* **Server**: `Handlers.lean`: the three request handlers over the hub model, one request at a time, which
  is what happens (C71; the hub has no lock; component locking is C21's subject). `Lifecycle.lean`: call objects,
  counters, notification and the completion queue, all threads interleaved at the granularity of one
  critical section or one gRPC operation; gRPC is the environment steps listed at the top of that file. `Service.lean`: life cycle, handlers, clients and
  network together (C85, C86, C87).

## Findings (claims the code does not satisfy; R = proved as refutation)

* C05/C04/C51/C52 (R): extending the oldest hub state when the table is full recycles that same state: it
  becomes its own successor, and counts go to the wrong context. Plain context requests suffice.
* C86 (R): an update whose call fails at the client (deadline, lost answer) may have been counted; a client that
  retries counts it twice.
* C08 (R): `UpdateLMCounts` with an invalid state and Bayesian history indexes `hub_states_` out of bounds.
* C19 (R): extra row in the count file → out-of-bounds write; empty vocabulary file → `back()` of empty
  vector; symbol 2^31-1 → signed overflow; non-numeric field → uncaught exception. `Read` writes the counts
  holding reader locks only.
* C30 (R): `lexicographic_order_[oov_label()] = idx++` should be `lexicographic_position_`; so the weight of
  `<unk>` goes to index 0; a non-dense table with `<unk>` or arc labels outside the table index out of bounds.
* C36 (R): label -1 matches the backoff arc (rests on OpenFst's matcher contract).
* C37 (R): 64-bit state ids truncated; updates at the id just past the table accepted.
* C39 (R): notification fired at start, so `Shutdown` does not wait, and a shutdown racing with start-up
  requests a call on the dead queue.
* C43 (R): k > n out of bounds. C44 (R): top_n = 0 returns all; top_n = n refused.
* C46 (R): relabelling collision. C47 (R): silent insecure fallback; server TLS flags ignored unless the
  configuration asks for TLS. C48 (R): flag default overrides configured timeout.
* C49 (R): refused update already applied. C50 (R): empty file gives 0/0.
* C58 (R): the helper counts as active after a failed `Init`.
* C59 (R): the character n-gram model starts in state 0, not the automaton's start state; `SymLMScore` of it
  does not check for state -1.
* C65 (R): word model `NextState(-1, c)` creates a state whose `ExtractLMScores` is undefined behaviour.
* C103 (R): with a word n-gram model one letter that, inside a word, continues no word of the vocabulary makes
  `CalcBitsPerCharacter` fail for the whole file (the reply is empty, which the client takes for an error).
* C94 (R): the same for the cache counter of the word model.
* C90 (R): the PPM cache counter is an `int` that only grows: a server asked long enough (2^31 cache accesses) overflows it,
  which is undefined behaviour; with wrap-around, stale cache entries would pass for fresh.
* C67 (R): a text file without lines → undefined behaviour unless a vocabulary is given; a text of empty lines →
  reads the first arc of a state without arcs (given OpenGrm's automaton for no input); `max_order = 1` cannot
  be trained.
* Seen while modelling, no theorem: PPM: empty vocabulary → undefined behaviour; invalid state id →
  `cache_index_[s]` out of bounds; NaN alpha/beta
  accepted; `UpdateLMCounts` after symbol 0 goes on at the unigram state. Word: vocabulary of only
  epsilon/`<unk>` → `next_chars[0]` out of bounds; `model_state > NumStates` off by one; symbol -1 at a prefix
  state matches the first continuation; words containing spaces are ambiguous.

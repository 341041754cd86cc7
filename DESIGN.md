# Formal model of sawatabi in Lean 4

`properties.jsonl` lists the properties; `MANIFEST.json` maps each one to theorems.
The Lean project is in `lean/`. `tools/gen_properties.py` writes `properties.jsonl`.

## Layout

| Directory | Content |
|---|---|
| `lean/Verif/Base.lean` | exceptions, the state-and-exception monad `Py`, ordered dictionaries |
| `lean/Verif/Model/*.lean` | the model of the code; every definition cites file and lines of /repo |
| `lean/Verif/Spec/*.lean` | independent specifications (Hamiltonian, penalties, partitions, window diffs) that do not use the model's functions |
| `lean/Verif/Lemmas/*.lean` | proof machinery |
| `lean/Verif/Props/*.lean` | the property theorems, each followed by an `example` that meets its hypotheses; `Instances*.lean` apply the theorems whose hypotheses are runs of the model to concrete runs |

## How the code is modelled

* **Exceptions and partial effects.** A Python method that mutates `self` is a function
  `Py State α = State → Res State α`: it returns either a value and a state, or an exception *and the state at the
  point of the raise*. Mutations appear in the order of the source. So "a failed call changes
  nothing" is a theorem about the order of checks and mutations, not a consequence of the encoding.
* **Numbers.** Coefficients, scales, offsets, temperatures and times are exact rationals. Floating
  point rounding is modelled for the solver (Model/Rounding.lean, C109; Model/RoundingSpin.lean, C117)
  and for `to_physical` (Model/RoundingPhysical.lean, C110; with constraints, for QUBO models,
  Model/RoundingConstraint.lean, C126) only; NaN and infinities are not modelled there.
* **Placeholders** are expressions over `+`, `*`, rationals and named placeholders
  (`pyqubo.Placeholder`/`Express`/`Coefficient` are merged into that one type).
* **Arguments** range over small Python universes (`None`, wrong type, tuple of anything, ...) so that
  the type checks of the code are part of the model.
* **Interaction table.** The default columns are kept as a list of rows; the attribute columns are
  separate lists, because the code lets them get out of step. The registered attribute names and the
  stored length (an integer, which may go below zero) are separate fields, as in the code.
  `Model/Columns.lean` models the same methods with one list for each default column and every write
  of the code; `Lemmas/Columns*.lean` and `Props/Columns.lean` (C84) prove that both end alike, with
  equal values and exceptions, for every call.
* **Histories.** `Spec/History.lean` has one constructor for each public method. `Made env P m` says
  that `m` results from `LogicalModel(...)` and public calls satisfying `P`, returning or raising;
  merged models are made likewise. `Physical.FromCalls` is what `to_physical` returns for such models.
* **Several models.** A model holds its constraints as values, except in `Model/World.lean`: there a
  world has constraint objects and models that refer to them, with every way a call reads or writes
  through a reference. C91 relates both views.
* **Queries** (`Model/Getters.lean`): pandas turns the names of the columns into a condition on single
  lines or raises; conditions that compare lines are left out.
* **Sets** (variables of a constraint) are duplicate-free lists in arbitrary order: theorems hold for
  every iteration order. `Model/SetObjects.lean` makes them objects that constraints refer to and callers
  may change (C120); elsewhere they are values.
* **Time** (`current_time()`), the import time, object ids, the decimal rendering of floats, random
  numbers and `exp` are parameters that the theorems quantify over.
* **User functions** (`map_fn`, `solve_fn`, `unmap_fn`, `filter_fn`) are arbitrary functions that may
  return or raise.
* **Solvers.** `SawatabiSolver`: the random source is an abstract machine, `exp` an arbitrary function.
  dimod's energy, `change_vartype` and `ExactSolver` are written out (the order of its samples is not claimed). Optigan and D-Wave: the server is an arbitrary function
  of the request; what is sent and how the answer is decoded is modelled (for Optigan down to headers and JSON, `Model/OptiganHttp.lean`,
  `Model/JsonText.lean`; gzip and files are arbitrary functions).
* **Chances** (C111, C123; in C123 the orders of the variables are drawn evenly as well): the numbers for the acceptance test are independent and even on the multiples of
  `1 / N` in `[0, 1)`; in C111 the orders of the variables are given. These are the only claims about chances.
* **NPP dynamic programming** (`sawatabi/utils/npp.py`): natural numbers, and integers in
  `Model/NppInt.lean`, with exact halving. `Model/NppText.lean`: the printed table.
* **Streaming algorithms.** `SolveDoFn.process` is a state transformer over the state cells; Beam itself
  is not modelled. Model objects are values; where the code shares one object between cell and output
  a flag `shared` records it. A NaN scale has a stand-in. The columns with the variables
  are left out as attenuation keys. The number partitioning sample reads one clock value for each mapping; ties between samples are
  broken by their order.
* **Physical models by hand** (`Model/PhysicalCalls.lean`): `add_interaction` of `PhysicalModel` with a
  label, a pair of labels, or another body. dimod adds the coefficients of `(a, b)` and `(b, a)` and
  rejects self-loops; the solvers are repeated with this step.
* **Pipelines** (`Model/Pipeline.lean`): text input, indices, timestamps by index and Beam's fixed and
  sliding windows are written out. Windows are delivered in the order of time, each once, with its
  elements in any order.
* **Texts** (`Model/Output.lean`): the output part, the messages of the solving part, the report of the
  number partitioning sample and the loop of the publisher. How times and exceptions are written is an
  arbitrary function; numbers in reports are whole. `Model/Printing.lean`: `__str__` and `__repr__` of the
  models, with arbitrary formats for arrays, tables and numbers; `isinstance` as a relation; clocks. `Model/ConstraintText.lean`:
  `__str__`, `__repr__` and `__ne__` of the constraints, with CPython's `repr` of strings written out; which characters outside
  ASCII are printable and how numbers are written is arbitrary.
* **Pub/Sub** (`Model/PubSub.lean`, `Model/PubSubCity.lean`): the message for a city and the lines of the subscriber; names of the resources, encoding and decoding. The service itself is an arbitrary function that
  delivers each message once (an assumption of C134 and C135).
* **Sample models** (`Model/Samples.lean`): functions that differ in a number are one function of that
  number; printing is left out.
* **Travelling salesperson sample** (`sample/algorithm/tsp_window.py`): the PyQUBO expression is a term
  (`HExpr`), `compile()` an arbitrary function that is assumed to compile quadratic expressions
  correctly (`CompilesAll`); `Lemmas/Compile.lean` has such a function. The geodesic distance is an
  arbitrary function of two places. Its text output is in `Model/TspText.lean`.

## Trusted base

* Lean's kernel, and the axioms `propext`, `Classical.choice`, `Quot.sound` (some theorems use fewer).
  No own axioms, `sorry`, `native_decide` or `bv_decide`.
* That the definitions in `Verif/Model` say what the cited lines of /repo do.
* Library behaviour taken as given: Python `dict`/`list`/`sorted`/`str` order; pandas
  `DataFrame(dict)` (raises on ragged columns), `query`, `iterrows`; pyqubo `Array.create` (labels
  `name[i][j]`, rejects `*` in labels, rejects shapes with a non-positive entry), compile/to_qubo of
  `expr + fake variable`; dimod `BinaryQuadraticModel.energy`, `change_vartype`, `SampleSet`,
  `ExactSolver`; Apache Beam state cells and windows.

`INDEX.md` (written by `tools/gen_index.py`) lists for each theorem its module and the axioms that
`#print axioms` shows; none goes beyond the three above.

Not modelled: warnings of the libraries (those of the code are in `Model/Warnings.lean`), logging and timing but for `profile` (`Model/Profile.lean`), the transport of requests to Optigan and D-Wave,
the neal sampler, Beam runners, the
DataFrame cache and `_previous_physical_model` (written, never read), pickling.

## Plan per property

Where the code does not have the property, the plan is: a counterexample theorem (`..._refuted`) plus
the strongest true statement with suffix `_partial`.

| Property | Model and proof |
|---|---|
| C01 | Invariant over operation histories, all operations and error states; false after merge (suffix clash), so partial for histories without merge / with fresh ids, and a refutation |
| C02 | Direct: success equation of add, energy of appended row |
| C03 | Order of checks and mutations in the exception monad |
| C04 | Case analysis on the target, symmetry of the ordered pair |
| C05 | Frame theorem over rows |
| C06 | Equality of the two calls; false for attributes (dropped), partial + refutation |
| C07 | Invariant over histories without to_physical; success theorem for re-adding |
| C08 | Invariant for histories whose updates use registered keys; refutation otherwise |
| C09 | Get-after-set for registered keys; refutation for update with a new key |
| C10 | Refutation (import-time default), partial: explicit timestamps |
| C11 | Energy with `v := 0`, from the row filter |
| C12 | Refutations (equality constraint, constraint without the variable); partial success theorem; what a refused deletion leaves (`Props/DeleteLeft.lean`) |
| C13 | Substitution theorem for models with no removed row on `v`; refutation otherwise; exact formula for all |
| C14 | Refutation; partial for variables in no constraint |
| C15 | Iff on values and free replacement names, state unchanged; what a fix that raises half way leaves (`Props/FixLeft.lean`) |
| C16 | Partial when deleted and fixed are disjoint subsets of the labels; refutation |
| C17 | Elementwise shape theorem; label inclusion; refutation for rank mismatch |
| C18 | Induction over the shape |
| C19 | Sum over rows regrouped by key; dictionary-sum lemma |
| C20, C21 | C19 applied to the merged model plus C30-C32; C21 through the implicit conversion: energy up to a constant, the exact constant, refutation of exact equality; exact success conditions (generated names are distinct) |
| C22 | Success postcondition; idempotence |
| C23 | Refutation (missing placeholder with constraint), partial without constraints |
| C24 | Invariant of the numbering loop; refutation for clashing labels |
| C25 | Refutation (deleted or unregistered variable); partial when interactions use registered alive variables; invariant over histories of calls that mention only such variables (`Lemmas/Usable.lean`, `Props/PhysicalMade.lean`) |
| C26 | Dictionary characterisation |
| C27 | Permutation invariance |
| C28, C29 | Energy identities over the dictionaries |
| C30-C32 | Energy of the constraint's model computed by induction over the set; minimisers by arithmetic |
| C33 | Permutation invariance of to_model |
| C34 | Set laws |
| C35 | Constant-shift theorem (partial), refutations for offset sign and scale |
| C36 | Round-trip theorem; a conversion does the same without the removed interactions (`Props/ConversionActive.lean`) |
| C37 | Refutation (placeholder, name clash); exact success condition; exact state after an exception (Props/ConversionLeft.lean) |
| C38 | Energy of merge; type-mismatch via C35 |
| C39 | Shape and label inclusion; exact arrays and labels of every successful merge (Props/MergeExact.lean) |
| C40 | Refutations; exact success condition and exact outcome of each raising merge (Props/MergeExact.lean) |
| C41 | Union theorem |
| C42 | Energy identity for QUBO models; refutation for aliasing; exact success, failure and aliasing by induction over the terms (Props/PyquboExact.lean) |
| C43-C51 | Annealing loop as a fold over an arbitrary random source; invariants by induction |
| C52-C56 | solve wrapper |
| C57 | Brute force over all assignments |
| C58 | Decoding; refutation of energies when the offset is non-zero |
| C59-C63 | DP table as a function of (sum, prefix); induction over the prefix |
| C64-C73 | SolveDoFn.process as a state transformer with arbitrary user functions |
| C74 | Fold |
| C75 | Regular expression as a predicate, decimal value |
| C76, C77 | Direct |
| C78, C79 | Case analysis; induction over nested lists |
| C80, C81 | Invariant over the windows: rows of the model and numbers of the window; exact solver and C57 |
| C82 | C19, C20, C21 (constant) composed with C43, C57 over `Made` |
| C83 | Penalty argument over all assignments (bits and spins), then C82 |
| C84 | Simulation between the column model and the row model, call by call |
| C85 | List of reasons to reject (Spec/Acceptance.lean); the checks of each call decide as the list |
| C86 | Last-touching-call specification (Spec/Registry.lean), induction over histories |
| C87 | Relation `Same` between two models (Lemmas/Congruence.lean), kept by each call; `Proper` over `Made` ; with constraints: matching of dictionaries and permuted items (Props/EqualityPhysical.lean) |
| C88 | Meaning of the expression by induction over its loops; import by C42; windows as for C80 |
| C89 | Every bit occurs in the physical model, C57, penalty argument with parity of the defects |
| C90 | Run of the call on one object equals the run of `merge` on two equal ones |
| C91 | Worlds of models and constraint objects; each call simulates the call on a separate model |
| C92 | The calls give a known polynomial; its variables are those it depends on (C26_depends); exact solver |
| C93 | As C92, with the penalty of the constraint |
| C94 | As C92, for the models of the solver samples |
| C95 | Invariant over the windows as for C80, with the timestamps in the attribute column; attenuation sets the scales anew; exact solver and C57 |
| C96 | The starts of Beam's windows are the multiples of the period in reach; sorting restores the order within a window; C81 |
| C97 | Number of elements of a window as a minimum of differences, congruences modulo the period; C95 |
| C98 | As C96, with C89; Props/TspPipelineText.lean runs the pipeline with the texts of C122 |
| C99 | Sweeps as paths of forced and free flips (Spec/Reach.lean); every run follows a path, and draws are built for every path |
| C100 | Counting the accepting numbers among evenly spaced ones |
| C101 | Cases of the options; cutting texts at the first bracket |
| C102 | The message as a text, compared with the one that names both times |
| C103 | Decimal numerals by place values (Spec/Output.lean); a text cut at characters that are not in numerals; with C96 |
| C104 | Induction on the rounds of the loop |
| C105 | Lines of joined texts; the frame of C08 |
| C106 | Induction on the elements and types |
| C107 | Floors of multiples |
| C108 | Recursion over the batches for the numbers and pairs held; closed criterion for leftovers |
| C109 | Error recurrence along the accepted flips; the same induction with error 0 for multiples of a power of two |
| C110 | Each coefficient is a rounded sum over the interactions with its key; the exact run on a model with one interaction per key has the same result, so the facts about `to_physical` carry over |
| C111 | Induction on the flips gives the distribution as a chain; the chain balances the weights of each pair of states up to the errors |
| C112 | The frame is the table with positions; a filter keeps order and positions, and the columns are read by `Forall₂` |
| C113 | Every call that registers no array preserves the shapes; induction on the history against a ledger of shapes |
| C114 | Invariant of the run: the energy is the sum over the pairs with different times; closed form by swapping sums; the answer by the lemmas for pair lists of C108 |
| C115 | The dictionaries after the calls by induction; merging reversed pairs gives an ordered model with the same energies, for which the earlier theorems hold |
| C116 | Problems that differ in the order of dictionaries have equal arrays up to the order of neighbours; every step of the annealing is equal |
| C117 | Errors of sums in any order and grouping by induction on the sum; the bound for one energy from the errors of the coefficients; the runs by C109 |
| C118 | Model with integers (Model/NppInt.lean): same steps on natural numbers; with a negative number the last row always reads behind the table |
| C119 | Model/Attenuation.lean: the loop reads each line when its turn comes; induction over the lines; C72 for smallest and greatest entry |
| C120 | Model/SetObjects.lean: sets as objects with addresses; each library call keeps all sets (frame) and refines the calls on values; history relation for callers that pass copies; refutation with a shared set |
| C121 | Model/Profile.lean: the decorator as a transformer of functions with a counter of clock readings, the generator of random numbers as a stream with a position; the loops of the sample by induction, reusing the lemmas of C92 |
| C122 | Model/TspText.lean; splitting at line ends and at arrows; refutation with an arrow in a name |
| C123 | Two sweeps can turn any single spin, so 2n sweeps lead from every state to every state with a least chance (Doeblin); contraction; sequential order refuted by three spins that go round (`Lemmas/Mixing.lean`, `Props/SolverConnected.lean`, `Props/SolverMixing.lean`) |
| C124 | Every part of the text can be read from the left: a quoted string up to its quote (escapes are prefix-free), a label up to the parenthesis, a number up to the comma (`Model/ConstraintText.lean`, `Props/ConstraintText.lean`) |
| C125 | Contents of the finished table from C59-C63; lists, cells and lines can be read from the left whatever their padding (`Model/NppText.lean`, `Spec/NppText.lean`, `Props/NppText.lean`) |
| C126 | The constraint loop in floats does what it does exactly, up to coefficients; the result is that of a model without constraints whose further interactions are the rounded penalties, so C110 and C117 apply (`Model/`, `Spec/`, `Lemmas/`, `Props/RoundingConstraint.lean`, `Lemmas/RoundingPenalty.lean`) |
| C127 | `Model/Aggregate.lean`, `Props/Aggregate.lean`, `Props/AggregateExact.lean`: induction over the answer from the right; the records are determined by the answer |
| C128 | `Model/Options.lean`, `Props/Options.lean`: cases on the options; refutations for the options that are read late |
| C129 | `Model/OptiganHttp.lean`, `Model/JsonText.lean`, `Props/OptiganHttp.lean`, `Props/JsonText.lean`: cases on the access data; refinement to `optiganSolve`; the JSON text is a prefix code, by mutual induction over values |
| C130 | `Props/OptiganEndToEnd.lean`: C25 (made), C20, C29, C58 and C83 composed; any assignment is encoded as a vector of bits to compare with the server's best |
| C131 | `Model/DWave.lean`, `Props/SamplersEndToEnd.lean`: cases on the access data; C20, C21, C28 composed over any faithful sampler |
| C132 | `Props/Whole.lean`: the success of each step (C20–C22, C57) composed; an empty physical model means a constant objective by C26_depends |
| C133 | `Model/Warnings.lean`, `Spec/Warnings.lean`, `Props/Warnings.lean`: the methods that warn written out over model and warnings, compared with the plain ones; steps that do not warn commute with forgetting the warnings |
| C134 | `Model/PubSub.lean`, `Spec/PubSub.lean`, `Props/PubSub.lean`: names of topics are injective, decoding undoes encoding; permutations of what is delivered |
| C135 | `Model/PubSubCity.lean`, `Props/PubSubCity.lean`: a name of letters needs no escapes, so the message is that of `json.dumps` and C129 tells it apart; C134 for delivery |
| C136 | `Model/PublisherText.lean`, `Props/PublisherText.lean`: by C75, cases on the options; messages of other kinds end in a character that is no digit |

`MANIFEST.json` names, for a proved property, the theorems that make it up; for a partial one also the
refutations.

# Formal model of jom (qt-labs/jom) in Lean 4

## Trusted base

* The Lean 4.33.0 kernel. No axioms are added; every property theorem depends at most on
  `propext`, `Classical.choice`, `Quot.sound` (checked with `#print axioms`).
* The reading of the C++ source: the model is hand written, function by function. Every definition
  cites file and lines in `/repo` and states its simplifications.
* The behaviour of Qt and of the C library as recorded in `Verif/QtStr.lean` and in the comments of the
  model (e.g. `QString::replace`, `QString::remove` with a negative index, `QIODevice::readLine`,
  `QList::mid`, `std::stable_sort`, semaphores).
* The Windows API (process creation, file attributes) is not modelled; it appears as
  unconstrained inputs (oracles) of the model: exit codes, file times, order of process
  terminations, order of token grants.
* Windows semantics assumed by `Model/ProcessLife.lean`: every completed read of a pipe puts one packet into the queue of the port, first in, first out;
  closing a handle aborts its reads; `GetExitCodeProcess` of the invalid handle answers for jom itself.

### Representation decisions

* `QString` = `List Char` (`Str`). Character classes and case mapping are exact on ASCII (see the
  comments in `QtStr.lean`); other characters are never letters, digits or blanks and have no case.
* An exception (`throw Exception`) is `Except.error`. Undefined behaviour of the C++ code (index
  out of range, signed overflow, modulo zero, ...) is a distinct outcome, never a default value.
* Unbounded loops are structural or take fuel; wherever fuel is used it is proved to be sufficient, so
  that termination is a theorem and not an assumption.
* Concurrency: jom is an event driven program. The model is a transition system; each event handler
  (slot) is one atomic step; the order of events is chosen by an arbitrary list (= all schedules).

## Layout

* `Verif/QtStr.lean` – Qt string operations.
* `Verif/Model/*.lean` – the model, one file per C++ source unit.
* `Verif/Spec/*.lean` – independent specifications used by the property statements.
* `Verif/Proofs/*.lean` – helper lemmas.
* `Verif/Props/*.lean` – the property theorems `Cxx_…`, each with a concrete case that meets its hypotheses.
* `properties.jsonl` – the properties in English. `MANIFEST.json` – which theorem covers which one.
* `seeded/LOG.jsonl` – results of editing the model like a realistic bug.

## Plan per property

| Id | What is modelled | How it is proved |
|----|------------------|------------------|
| C01 | `MacroTable::expandMacros` with the used-macro set, fuel = text length + sum of value lengths | measure argument: fuel never runs out |
| C02 | same | segment grammar in the spec; induction over the segment list |
| C03 | same | reachability / acyclicity of the reference relation in the spec; induction over the used set |
| C04 | same | induction, tables agree on reachable names |
| C05 | all mutators of `MacroTable` | invariant over operation lists |
| C06 | mutators and `MakefileFactory::apply` order | invariant over operation lists |
| C07 | `setMacroValueImpl`, `internalSetMacroValue` | replace-all spec |
| C08 | `parseSubstitutionStatement`, `applySubstitution` | relation to an occurrence-based spec; the caret quirk in the *before* part refutes the general claim, partial theorem outside it |
| C09 | environment part of `MacroTable` | the claim is expected to be false (source is overwritten before it is tested): negation for all histories |
| C10 | `readLine_impl_local8bit` with explicit buffer size and fill level | invariant on buffer indices, equality with line splitting |
| C11 | line post-processing of both readers | case analysis on the last characters |
| C12 | `removeInlineComments` | equality with a left-to-right spec; refuted for a `#` directly after `^#`, partial otherwise |
| C13 | `removeCommentsAndFindCommandSeparator` | relation to a scanner spec |
| C14 | `splitTargetNames`, `removeDoubleQuotes` | round trip by induction over the names |
| C15 | `containsWildcard` | scanner spec |
| C16 | `Command::evaluateModifiers` | modifier-list spec, induction |
| C17 | preprocessor line loop and skip loop | block AST with denotation, induction over the AST |
| C18 | same | depth counting over all line sequences |
| C19 | file stack | decreasing potential over the stack |
| C20 | LALR tables, driver and semantic actions of `PPExprParser` | LR invariants (soundness) and induction over derivations (completeness) |
| C21 | semantic actions with a distinct undefined-behaviour outcome | division: proved; modulo: refuted by witness |
| C22 | flex rules by longest match | sequences of pieces with optional blanks; EXIST refuted by witness, proved where no parenthesis is closed after it |
| C23 | `parseDescriptionBlock` (second half), `createTarget`, `Makefile::target` | the table agrees with what the list of descriptions says; induction over descriptions |
| C24 | `checkForCycles` with marks | DFS correctness: error iff a reachable cycle |
| C25 | `checkForCycles` + `internalBuild` lookup | refuted by the path fallback; partial without fallback hits |
| C26 | sync-point code in `parser.cpp` | refuted (`break`, adjacent `.SYNC`), partial (all dependents are targets, no empty group); composed with the scheduler (C30) |
| C27 | rule priority, filtering, selection | minimality of the selected index |
| C28 | batch grouping arithmetic | partition lemma |
| C29 | `DependencyGraph::build` | DFS invariant |
| C30–C32, C35–C38 | `TargetExecutor` + `DependencyGraph` + `JobClient` as transition system | inductive invariants over all event lists |
| C33 | several executors and one semaphore | sum invariant |
| C34 | abort path with pending acquisition | refuted by a trace; partial for runs without abort |
| C39 | output hand-over | "at least one" proved; "at most one" refuted by a trace |
| C40 | `Process` output buffers | merge, uniqueness of the merge, history invariant |
| C41 | `isTargetUpToDate` | equivalence with a declarative spec |
| C42, C43 | `CommandExecutor` state machine | induction over command list |
| C44 | `createTempFiles`, `cleanupTempFiles` with a file-system map | induction |
| C45 | `exec_set` and signal broadcast | invariant |
| C46 | `createEnvBlock` | decode ∘ encode |
| C47, C48 | `Options` | option-list induction; refuted for repeated -j, partial |
| C49 | `splitCommandLine` | round trip |
| C50 | `FastFileInfo` cache | history invariant |
| C51, C61 | `expandFileNameMacros`, after `expandMacros` | induction over pieces of a text with the search position as invariant; refuted by several witnesses, partial under `Fine` |
| C52 | `initJobServer`, `JobServer::start` | decision table |
| C53 | job tree | no deadlock: every unfinished state of the tree has a step that makes progress |
| C54 | batch mode + scheduler | refuted by a trace; partial if every group has one target |
| C55 | `Options` | grammar of command lines (`Spec/Options.lean`), both directions |
| C56 | `Options` + `MacroTable` | invariant: the first definition is read-only |
| C57 | `expandCommandFiles` | refuted by witness; partial if the references come last |
| C58 | `Process` with its two pipes | refuted by a trace; partial if the pipes are empty at the end |
| C59 | `exec_cd` and the state machine of `CommandExecutor` | invariant of the log |
| C60 | `executeCurrentCommandLine` | case analysis against declarative predicates on the text |
| C62 | `Parser` over any source of lines | grammar of makefiles (`Spec/Parser.lean`); the parser follows every derivation, and everything it accepts has one (for sources that stay at their end, which the preprocessor is proved to do); composed with C23 |
| C63 | `parseCommandLine`, inline files | induction over the markers; refuted for unclosed files |
| C64, C65 | `isDotDirective`, `isInferenceRule` | both directions against the written form; refuted for comments and blanks |
| C66 | `isDescriptionBlock` | scanner spec; refuted for one-letter targets and colons behind `;` |
| C68 | `Model/Make.lean`: scheduler + records of targets + file cache + inference rules in one state | refinement to the scheduler model, invariant over runs, test lemma for `isTargetUpToDate` in the middle of a build |
| C69 | `Model/Make.lean`, two runs | invariant over runs in which the commands do their work (settled targets stay in order, the cache is right but for files being made), composed with C68; commands that jom carries out itself without a process are split into starting, writing and ending (`Proofs/MakeSplit.lean`: such a run and the split run go through the same states), the invariants are proved for the split runs (`Proofs/MakePlain.lean`). This holds for C69, C74, C93-C96 and C101 |
| C70 | `Model/Prepare.lean`: end of `Parser::apply`, `preselectInferenceRules`, `TargetExecutor::apply` | depth-first walk with a growing table: invariant on the table (old entries unchanged, new ones named and fitted), completeness of finished keys, cycle check on the growing table; composed with C23, C24, C27 |
| C71-C73 | `Model/Prepare.lean` and `Model/Make.lean` composed (`Props/Build.lean`) | the graphs of a run are those of the records, which only grow by applied rules (`Proofs/MakeRecords.lean`); translation between numbers of targets and the makefile; composed with C30, C31, C37, C70 |
| C74 | `Model/Make.lean` with a ghost map of file contents (`Spec/Content.lean`) | invariant: what looks up to date and is not being made has the content of its recipe, only derived files change (`Proofs/MakeContent.lean`); two finished runs compared by induction over what targets need (`Proofs/MakeSame.lean`) |
| C75 | `expandWildcards` | paths compared by drive, separators and case; case analysis on where the folder of the makefile ends in the path found |
| C76 | `Model/Whole.lean`: preprocessor, parser, wildcards and preparation in one function | the parser's blocks come from the text (C62), tables from the blocks (C23), composed with C70-C73 |
| C77 | `Model/Main.lean`: `MakefileFactory` and `main` around option parser and `Model/Whole.lean` | invariants of macro table and environment over arguments, environment, predefinitions and all steps of the preprocessor |
| C78 | the same | errors of the option parser characterised by the grammar of C55; the rest composed with C32 and C76 |
| C79 | `Model/Scheduler.lean`, `Model/Main.lean` | witness; simulation of the runs with the option by runs without |
| C80 | `Model/Main.lean` | entries of the macro table followed through arguments, environment and predefinitions |
| C81 | `commandLineArguments` | reduction to the grammar of C55 |
| C82 | `Model/Whole.lean`, `Model/PPExpr.lean` (the parser of expressions in place of the parameter `World.eval`) | simulation of C17 extended by lines that are taken as they are (inline files); composed with C62, C23, C20, C22 |
| C83, C84 | `Model/ProcessLife.lean` (a `Process` object and the completion port as a state machine; one event per action of a thread or of the operating system) | invariants over all event sequences |
| C85, C86 | `Model/Preprocessor.lean`, `Model/LineReader.lean` | induction over the parts of a logical line; equivalence with a description by counting parentheses |
| C87 | `Model/CommandExec.lean`, `Model/FileMacros.lean` | refinement: induction over the commands against the script language of `Spec/Script.lean`, which is proved to be deterministic |
| C88 | `Model/Reader.lean`: the whole `MakefileLineReader`, both encodings and modes, line numbers | both readers refine the relation `LineRead` (`Spec/Reader.lean`), which is proved to be functional; the stream's read-ahead is arbitrary |
| C89 | the same, with the stack of files of `Model/Preprocessor.lean` | invariant: a reader knows how many lines are gone; lockstep of the preprocessor with the stack of readers through all its functions |
| C92 | `Model/TempFiles.lean` | invariant of all interleavings: the file is gone or an executor is going to remove it; `C92_start` ties the steps to `Model/CommandExec.lean` |
| C93 | `Model/Make.lean` with `Spec/MakeRun.lean` (`OnlyShows`) | invariant of all dry runs: the records and the cache agree with the unchanged files (`Proofs/DryRun*.lean`); invariant of all builds: a mentioned file is unchanged or was written later by a target that was started (`Proofs/MakeStale.lean`) |
| C94 | `Model/Make.lean` | the invariant of C69 (`Proofs/MakeSecond*.lean`) with a set of targets that are in order at the beginning (`Sure`): they are never executing (`Proofs/MakeSpare.lean`); exactly the rest is made: staleness spreads upwards along completed targets (`Proofs/MakeExact.lean`) |
| C95 | `Model/Make.lean` | the invariant of C69 with a set `H` of targets that are hurt, closed under being needed: nothing is claimed about their records and files, and everything else goes on as if they did not exist |
| C96 | `Model/Make.lean` | an invariant of all states, also aborted ones: what is neither being made nor has failed and looks up to date is right; what is started was not started before something that it is made from (order of the log, C02) and not again for a later requested target (with `/K`: unless it or something it needs has failed before); `Proofs/MakeResumeKeep.lean`: what is being made could be made from what was there at the beginning; `Proofs/MakeKept.lean`: a second invariant, that nothing has vanished and only wanted targets are new, so that the makefile is unambiguous for the next build too |
| C97 | `Model/MakeBatch.lean` | simulation: noting rules and then applying them to groups of one target is applying them at once; the invariant of C68 for the build that does nothing |
| C98 | all models | composition: the table of targets as a makefile of `Spec/Make.lean` (`Spec/EndToEnd.lean`), then C69, C74, C94 for it |
| C99 | `Model/Encoding.lean`: bytes of a makefile, `open` and the 8-bit reader in text mode | decoding inverts the encodings of the RFCs (`Spec/Encoding.lean`); the reader in text mode refines `LineRead` of the text with `\n` |
| C100 | `Props/EndFailures.lean`: C93, C95 and C96 for the targets of a loaded makefile | composition with C76 through `dbOf`, as C98 |
| C101 | `Props/Idle.lean`: `BehavesBut` (the world behaves, but idle targets need not do work) instead of `Behaves` | the invariant of C69/C95 with a set of excluded targets that is closed upwards (`Proofs/MakeSecondRun.lean` `Run.fineBut`, `Proofs/MakeIdle.lean`); an invariant for one target without file (`Proofs/MakePhony.lean`) and for a target that depends on it (`Proofs/MakeParent.lean`, `Props/IdleParent.lean`: until it is started, its file is not younger than the beginning, and the loop over the dependents gives the present time) |
| C102 | `Model/Report.lean`: what `/P` prints | round trip: the printed lines are physical lines of their own; those of macros are definitions in the sense of C86, those of rules form rules in the sense of C62/C65; composition with C82 |
| C103 | `Model/BuildInfo.lean`: what `/D` prints | every step of the scheduler prints exactly the verdicts it adds to the log; the times from the invariants of C69; the text is injective |
| C104 | `Model/ParserPos.lean`, `Model/PPPos.lean`: the parser and the preprocessor with exceptions that carry the state of the preprocessor | equal to `Model/Parser.lean` and `Model/Preprocessor.lean` without that state; every exception about a line is thrown while that line is the last one read; then C89 |
| C105 | `Model/Make.lean` with contents, two runs; `Spec/Jobs.lean`: commands whose success is decided by what they read | every successful command of the first run has read the final contents, and so has every command of the second when it ends; so it succeeds as well (induction over the second run, `Proofs/MakeJobs.lean`); the only other ways to an exit code are excluded (`step_dies`) |
| C106 | as C105, with failures and `/K` | what was started needs nothing that has failed (`Tells.below`), and what ended commands have read does not change any more (`Tells.told`); by induction along the dependencies, a target fails in both runs or in none; what is missing for a graph was missing at the beginning (`Tells.aliveAll`), so the exit code 2 is the same too (`Proofs/MakeFailures.lean`) |
| C107 | `Model/Scheduler.lean`, `Model/Timed.lean` (clock), `Model/TimedMake.lean`, `Model/JobTree.lean` (C107_tree) | invariant `Full`: without posted calls and awaited tokens no executor is free or all leaves are executed; time accounting: every unit of time in which an executor is free shortens what is left of every chain (`Proofs/SchedFull.lean`, `Proofs/SchedTime.lean`) |
| C108 | `Model/Handles.lean` (handles that `Process::start`, `setupPipe` and `onProcessFinished` open and close, the second start through the shell) | invariant: what is open is held by the running executors or was lost by failed starts; all handles are fresh and closed while open; refuted by an unbounded family of runs (`Proofs/Handles.lean`) |
| C109 | `Model/Abort.lean` (the waits after a failure: nested event loops, processes that end and are started meanwhile, job tokens, further failures) | invariant over runs: an executor that a frame has passed has no process from before the first failure; measure: commands left; refuted by a run with two commands in a target (`Proofs/Abort.lean`) |
| C110 | `Model/Timed.lean` | lower bounds by induction over timed runs: at most `-j` targets are made in a unit of time and at most one target of a chain (C30); with the upper bound of C107; refuted by two computed runs (`Proofs/SchedLower.lean`); composed with C98 in `Props/EndMoreJobs.lean` |
| C111 | `Model/ShowInline.lean` | `createTempFiles` with its output refines the one without; output = sections of the created files by induction over commands and files; unique readability because the end mark does not overlap itself |
| C112 | `Model/AcquireFail.lean` | the scheduler with one more event; the states are those of C30–C38, so their invariants hold; after the failure every step decreases a measure and changes neither exit codes nor the open request |
| C113 | `Model/JobTree.lean` | the sum invariant of C33 without the restriction to builds that do not fail: a jom holds at least one token fewer than it has running targets, also after an abort; live joms have executors of their own, also if their parent has ended; refuted by a computed run |
| C114 | `Model/JobTree.lean` | the argument of C53 with failures: if nothing can happen, all running commands are live joms, and the sum invariant leaves a free token unless `N` tokens are kept by failed joms; refuted by two computed runs |
| C115 | `Model/ReleaseFail.lean` | simulation: with the lost tokens put back, the tree is one without failed releases; the invariant of C33 and C53 then holds with `N` minus the number of failures; refuted by a computed run |
| C116 | `Model/NotParallel.lean` | the invariant of C33 and C53 does not need the outermost jom to have as many executors as the job server has jobs; its state is one that it reaches on its own (C32, C67) |
| C117 | `Model/Forest.lean` | every tree of joms that share a server satisfies the invariant of C33 and C53, and is run by an executor of an earlier tree; the last tree that is alive runs no other one, so its progress is not blocked |
| C91 | `Model/Dump.lean` | all ways of an acyclic graph by induction on the depth; the specification is the relation of declared dependents |
| C90 | `Model/Inference.lean` | composition of C02, C16 and the declarative replacement; C28 for batches |
| C67 | `.NOTPARALLEL` in `parser.cpp` and `main.cpp` | induction over blocks, composed with C32 |

## What is modelled

| Source | Model | Parts that are not modelled |
|---|---|---|
| `macrotable.cpp` | `Model/MacroTable.lean`, `Model/Report.lean` (`dump`) | |
| `helperfunctions.cpp` | `Model/Helpers.lean` | |
| `makefilelinereader.cpp`, `exception.cpp` | `Model/LineReader.lean`, `Model/Reader.lean` (characters), `Model/Encoding.lean` (bytes, byte order marks, `\r\n`) | I/O errors; `\r\n` and decoding for the lines of inline files; what Qt does in text mode (`readLine` converts a `\r\n` that one call has read completely, `QTextStream` drops every `\r`, codecs skip the byte order mark) is assumed |
| `preprocessor.cpp` | `Model/Preprocessor.lean`, `Model/ParserText.lean`, `Model/Reader.lean` (file stack with line numbers), `Model/PPPos.lean` (where exceptions are thrown) | |
| `ppexprparser.cpp`, `ppexpr_grammar.cpp` | `Model/Expr.lean` (tables copied literally) | stack growth, memory |
| `ppexpr.l` | `Model/ExprLex.lean` | the generated DFA itself: the rules were compared with the tables of `ppexpr-lex.inc` on 400000 random texts by a script, no difference |
| `parser.cpp` | `Model/Parser.lean` (line loop, items), `Model/ParserText.lean` (text functions), `Model/Blocks.lean` (description blocks, `.SYNC`), `Model/CycleCheck.lean`, `Model/Inference.lean` (rule search), `Model/Prepare.lean` (end of `apply`: requested targets, preselection, cycle check), `Model/Wildcards.lean`, `Model/ParserPos.lean` (where exceptions are thrown) | |
| `makefile.cpp` | `Model/ParserText.lean` (modifiers), `Model/Inference.lean`, `Model/FileMacros.lean`, `Model/Make.lean`, `Model/MakeBatch.lean`, `Model/Report.lean` (`dumpTargets`, `dumpInferenceRules`) | `dumpTarget` (never called) |
| `dependencygraph.cpp` | `Model/DepGraph.lean`, `Model/UpToDate.lean`, `Model/Dump.lean`, `Model/BuildInfo.lean` (`displayNodeBuildInfo`) | |
| `targetexecutor.cpp`, `jobclient.cpp`, `jobclientacquirehelper.cpp` | `Model/Scheduler.lean`, `Model/AcquireFail.lean` (a token cannot be acquired), `Model/ReleaseFail.lean` (a token cannot be given back), `Model/Timed.lean` and `Model/TimedMake.lean` (the same with a clock; jom itself takes no time) | texts of messages |
| `jobserver.cpp` | `Model/JobTree.lean`, `initJobServer` in `Model/Options.lean` | the semaphore key |
| `fastfileinfo.cpp`, `filetime.cpp` | `Model/FileInfo.lean`, `Model/BuildInfo.lean` (`toString`) | the Windows calls |
| `options.cpp` | `Model/Options.lean` | messages, encoding of command files |
| `main.cpp`, `makefilefactory.cpp`, `processenvironment.h` | `Model/Main.lean` (up to `app.exec`), `Model/Report.lean` (`/P`), `Model/NotParallel.lean` (job server and `.NOTPARALLEL`) | messages, Ctrl-C handling, the redirection of `/X` (only whether it works), codecs |
| `commandexecutor.cpp` | `Model/CommandExec.lean`, `Model/ShowInline.lean` (/U), `Model/TempFiles.lean` (all executors, Ctrl-C) | names of temporary files (any sequence of candidates), output of messages |
| `jomprocess.cpp`, `iocompletionport.cpp` | `Model/Process.lean` (output buffers, pipes, environment block), `Model/ProcessLife.lean` (start, notifications, exit codes, reads and their packets), `Model/Abort.lean` (`waitForFinished` and the nested event loops), `Model/Handles.lean` (handles) | destructors; `jomprocess_qt.cpp` entirely |

`Model/Make.lean` joins the models of scheduler, `isTargetUpToDate` and file cache: file times and "has commands" are
computed, not given. `Model/MakeBatch.lean` adds batch mode. Not modelled there: changes of files during one call of `startProcesses`.

`Model/Prepare.lean` also contains `TargetExecutor::apply` up to the point where the build starts. Targets are numbered in the
order in which they entered the table.

`Model/Whole.lean` composes preprocessor, parser, blocks, wildcards and `Model/Prepare.lean`: from the text of a makefile and the requested
targets to the table with which the build starts.

`Spec/Preprocessor.lean` (C17, C18, C19, C82, C85, C86) says by itself what a single line is: a directive with its value (`SaysWord`, `Directive`),
a macro definition (`LineDefines`), text continued on the next line (`follow`, `proceed`), the role of a skipped line (`Role`). It uses none of the
functions of the model that decide this; `Proofs/PPLine.lean` proves the two equivalent.

`Model/Preprocessor.lean` takes the expression evaluator as a parameter (`World.eval`), so its theorems hold for every
evaluator, in particular for `parseText` of `Model/ExprLex.lean` (`withExpr` in `Model/PPExpr.lean`). What that parameter cannot express is the start
condition of the scanner which survives from one expression to the next (`C22_leak_refuted`).

## Axioms

Every theorem named in `MANIFEST.json` depends at most on `propext`, `Classical.choice` and `Quot.sound`. `decide +kernel`
is used for finite tables and for witnesses; it adds no axiom.

## Findings: claims that are false for the code

Each is a theorem about the model (witness or general refutation); the corresponding `_partial` theorem states what holds.

* C07: the textual replacement for `A = $(A)x` also rewrites an escaped `$$(A)`.
* C08: a caret in front of the `=` of a substitution damages the replacement; `^^` and `^=` are not quoted characters (`C08_caret_quotes_refuted`).
* C09: the environment of the children is never updated by an assignment in the makefile.
* C12: a `#` directly behind an escaped `#` does not start a comment.
* C16: blanks between command modifiers (`- @echo`) stop the recognition; a huge exit-code limit overflows.
* C17: `!ELSE IF(0)` (no blank) counts as `!ELSE`; a second `!ELSE` is accepted and taken; skipped lines are macro-expanded,
  so a malformed one ends the program.
* C18: an unfinished line in front of a skipped part at the end of the input hides a missing `!ENDIF`.
* C19: a file that includes itself in a directive ending with a backslash is read forever.
* C21: `1 % 0`, overflow, and `INT_MIN / -1` are undefined behaviour.
* C22: `EXIST(a) && EXIST(b)` asks for one file `a) && EXIST(b`; `(EXIST(a))` is an error; an expression that ends with
  `DEFINED` changes the reading of the next expression.
* C25: dependents found only with the directory of the makefile in front escape the cycle check.
* C26: one dependent that is not a target makes jom drop an arbitrary part of the sync points; two `.SYNC` in a row are no barrier; macros
  left of `.SYNC` are not expanded.
* C27: rules whose target extension is spelled differently (`.c.obj`, `.c.OBJ`) are not chosen by the latest definition.
* C34: after an abort a token is given back twice; after an exception one is lost.
* C39: with three or more jobs two executors may write directly at the same time.
* C41: with a target file from the future a missing dependent goes unnoticed.
* C42: a command whose exit code is 259 (`STILL_ACTIVE`) is never taken for ended, the target hangs; `!cmd` as only command of
  a target without dependents is an index out of range.
* C43: `/N` still writes inline files, even over an existing file.
* C44: a `<<` at the beginning of a command is not replaced; inline files are removed only when the executor starts its
  next target, and by then the file may belong to another executor.
* C45: `set "X=1"` and `set X=%Y%` define other variables or values than in the shell.
* C47: see the manifest. C49: empty arguments and outer blanks are not preserved by quoting.
* C50: a rebuilt file keeps its old time under another spelling of its name.
* C51: `$(@)`, `$(**)` and `$(?)` without a part lose the character behind the `)`; a part of nothing leaves a `)`; a
  reference directly behind an empty one and a reference behind `^` are not expanded (the command gets U+FEFF); B ends at
  the first dot; `$*` cuts at a dot in the directory; `$@` in a target named with `$@` expands forever.
* C54: in batch mode only the first target of a group waits for the command.
* C56: `foo=1 foo=2` gives `foo` 1 but `FOO` 2.
* C57: the words of command files are moved to the end of the command line.
* C59: a second relative `cd` starts from the directory of jom, not from that of the first; `cd` accepts a file.
* C58: output that is still in a pipe when the process handle is signalled is lost.
* C61: `!` repeats commands that do not refer to the dependents, and executes commands with `$?` for older dependents.
* C63: an inline file without closing `<<` takes the rest of the makefile without a message.
* C64: comments in dot directives become values.
* C65: a blank or comment behind `.c.obj:` makes it an ordinary target.
* C68: a target inferred from a file that is itself a target with commands, but no declared dependent, is made again in
  every run.
* C69: `jom /A p x` with `p: x` makes `x` a second time after `p`, so `p` is stale after exit code 0.
* C69, C94: a target that can be inferred from two existing files (`q.c`, `q.cpp`) is out of date because of either of them when it
  is first looked at; then the rule with priority is applied, and if the target is looked at again before its turn has come, only
  the file of that rule counts. If the other file is the newer one, the target is dropped as being up to date: exit code 0, and the
  target is older than one of its sources. With enough jobs the target is made.
* C71: a dependent for which an inference rule fits counts as a target even if there is no source for the rule; it is dropped without a
  message because it has no commands, and the target that needs it is executed.
* C73: an inference rule may close a cycle between two requested targets; the graph of the second one has no leaves and jom ends
  with exit code 0 without doing anything for it.
* C74: a file that is written in the same instant as the newest file that was there before does not make the targets that depend on it
  out of date (`s ≤ T` counts as up to date), so an old target can survive a build with exit code 0.
* C75: with the makefile in `c:/proj`, the pattern `c:\proj2\*.c` gives `2\x.c`; a pattern with the full path of the own folder may give an empty name;
  with `jom /F sub\Makefile` the resulting names are relative to the wrong folder.
* C76: `$$@` in the dependents of a target whose name contains blanks gives a name with literal quotes that is neither target nor file;
  if an inference rule fits it, a target without commands takes the place of the described one.
* C66: `a: b` is a syntax error, the colon counts as part of a drive. `aa ; bb:c` describes the targets `aa`, `;` and `bb` with the command `bb:c`.

* C109: `Process::waitForFinished` ends with the current command of a target; the executor has started the next command of that target by then (its slot was
  connected first), which is not waited for: jom ends while it is running.
* C110: jom begins targets in the order in which they become available, so an additional job can put a long target behind short ones that become available earlier:
  a makefile takes 13 units of time with three jobs and 16 with four (the anomaly of list scheduling found by Graham).
* C111: /U prints contents as they are, so a content with the line `---end of inline file---` cannot be told from two files; `fputs` cuts contents at null characters
  if the output of the executor is not buffered.
* C112: `JobClientAcquireHelper::acquire` returns without a signal if `QSystemSemaphore::acquire` fails; `m_isAcquiring` stays set, so `startProcesses` and
  `waitForJobClient` wait forever, and the token that never came has been counted and is given back.
* C113: the token that a failing jom gives back twice (C34) stays in the semaphore of the job server: with `/K` in the outer jom later joms run one process more than `-j`.
* C114: a token that arrives while a failed jom is in `waitForProcesses` is kept until its commands have ended (`buildNextTarget` returns at once, `waitForJobClient` has nothing to
  wait for); if these commands are joms that need tokens, `N` such joms one inside the other block each other forever. Tokens kept by joms that ended with an exception have the same effect.
* C115: after `N` failed releases no token is left, and a jom that has asked for a token while a command was running waits for it for ever although it runs nothing
  and could use its own token.

Observations without a theorem: `NOLOGODEBUG` is read as NOLOGO and the letters D E B U G;
if several files from which a target can be inferred exist, a target
found out of date because of one of them may be dropped as up to date after the rule for another one was applied, depending on
the order of events (hence the assumption in C69); `/ERRORREPORT:x` is rejected; the empty argument and `@` alone index out of range; `/B`, `/Q`, `/T`, `/G` have no effect.
* C77: variables with `$` in their values reach the commands with macros expanded; the usual `PROMPT=$P$G` becomes empty. `jom FOO=$(CC)`: the macro
  is `cl`, but the variable of the commands is empty, as it is computed before `CC` is predefined.
* C79: `/DUMPGRAPH` shows the graph and then builds: `finished(0)` is emitted before the event loop runs and is lost (Qt semantics, trusted), while `main`
  queues `startProcesses` anyway.
* C80: predefined macros replace those of the environment (`CC=gcc` in the environment has no effect without `/E`).
* C82: lines of an inline file that begin with `!` or with the word `include` are taken for directives.
* C83: a process with exit code 259 is never reported (see C42); after the last process has been reported, timers that ask for its exit code renew themselves every 250 ms for ever (the invalid handle stands for jom itself, which is still active).
* C84: data of a process that still waits in the port when the executor starts its next command is taken for output of the new process, and two reads then share one buffer: output is lost or appears twice.
* C99: in an 8-bit makefile with CR LF a line whose CR is character 6142 (7166, ...) keeps the CR, since the two calls of `readLine` each see one half of the line end; a continuation backslash in front of it has no effect then (`C99_cut_continuation`). UTF-16 with the higher byte first and UTF-8 without byte order mark are read as Latin-1.
* C88: in a UTF-8 or UTF-16 makefile the text of an inline file is read behind what the stream has read ahead: for makefiles up to 16384 bytes the inline file
  and all the rest of the makefile are lost without a message.
* C89: "Missing !ENDIF directive." (and any error found when the last file has ended) is shown without file and line.
* C92: `exit(2)` in `DependencyGraph::internalBuild` (a dependent of the second requested target does not exist) leaves the temporary files of the first one behind.
* C93: `/N` does not show a target that becomes out of date only because another target is made, if its file is newer than the old file of that other target (a.c 10, a.o 5, app 7: only a.o is shown, a build makes a.o and app). With several requested targets, a target that two of them need is shown twice.
* C96: jom never deletes the file of a target whose commands failed (`.PRECIOUS` targets are collected in `m_preciousTargets`, makefile.cpp 571-575, and never looked at). If a command has written its file before it failed, the next build takes the file for up to date and ends with exit code 0 (`C96_failed_file_stays`).
* C36, C106: with `/K` and several requested targets a failure is forgotten when the graph of the next requested target is built (`Node::Unbuildable` belongs to the graph, and `onChildFinished` clears the cached time of the failed target, targetexecutor.cpp 236). `jom /K a.o app`: if the commands for `a.o` write a file and fail, `a.o` counts as up to date for `app`, and the commands for `app` are executed (`C36_across_refuted`). If they leave no new file they are executed again, so what is started depends on what failed commands leave (`C106_retried_refuted`).
* C97: when a command in batch mode has ended, only the first target of its group is forgotten by the file cache (targetexecutor.cpp 236) and read again; what depends on another target of the group is compared with the old file and not remade, although exit code 0 is reported (`C97_stale_refuted`, one job).
* C91: the dump of the graph repeats everything below a shared target for every way to it: `n` layers of two targets give about `2^(n+1)` lines. Names are not escaped in the dot form. If a target depends on itself (C25), the dump never ends.
* C101: a target that depends on a target without file is compared with the present time, so it is not made if its file has a time in the future (`C101_parent_future_refuted`).
* C102: `/P` prints no modifiers of the commands of targets and no line end behind `dependents:` if there are no dependents (`all:` with one command gives `\tdependents:\tcommands:\tdel x`). For rules, it prints neither what `.SILENT` and `.IGNORE` did nor inline files; the path `{\}` is printed as `{}`, which means the current directory.
* C103: `/D` prints the invalid time (01.01.1601) for every out-of-date target whose file exists, since `isTargetUpToDate` clears `m_timeStamp` (dependencygraph.cpp 176-177) before it is printed. With `/A` the mark is a blank for targets that are up to date but made nevertheless.
* C104: the error "cannot have : and :: dependents for same target" is raised (parser.cpp 455) after the commands of the block and the line behind them have been read, and names that line.
* C108: a simple command that `CreateProcess` cannot start (e.g. a batch file called without its extension) is started a second time through the shell; the second
  `Process::start` overwrites the six pipe handles of the first one, which stay open until jom ends; three of them are inheritable and go to every process started later.

## Mutation tests

`seeded/LOG.jsonl` has one line per edit of the model: which theorems failed, and which were tightened. Edits that only
broke examples led to stronger theorems (column `theorems_tightened`).

{"id": "C01", "title": "Macro expansion always terminates", "statement": "Expanding the macros of any text against any set of macro definitions - including self-referential, mutually recursive and malformed ones - finishes with either a text or an error; it never recurses without end.", "quantifier": "all macro tables, all input texts, both expansion modes (ordinary line / dependents line)", "why_tests_cant": "The set of tables and texts is infinite and divergence cannot be observed by a finite test run.", "anchors": ["src/jomlib/macrotable.cpp: MacroTable::expandMacros, cycleCheckedMacroValue"]}
{"id": "C02", "title": "Meaning of a macro invocation", "statement": "Expansion is compositional: ordinary characters stay, `$$` yields `$`, `$X` and `$(NAME)` yield the fully expanded current value (the empty text if undefined), `$(NAME:x=y)` yields that value with the substitution applied, a lone final `$` stays; the result of a text is the concatenation of the results of its pieces in order.", "quantifier": "all macro tables and all sequences of text pieces", "why_tests_cant": "Tests sample a handful of makefiles; interactions between neighbouring pieces and nested values are unbounded.", "anchors": ["src/jomlib/macrotable.cpp: MacroTable::expandMacros, parseSubstitutionStatement, applySubstitution"]}
{"id": "C03", "title": "Macro cycle detection is exact", "statement": "Expansion of a text succeeds if and only if every macro value reachable from it is syntactically well formed and no reachable macro refers back to itself; using the same macro repeatedly without a cycle is never rejected.", "quantifier": "all macro tables and texts", "why_tests_cant": "Needs a statement about every reference graph, not a few sample cycles.", "anchors": ["src/jomlib/macrotable.cpp: MacroTable::expandMacros, cycleCheckedMacroValue"]}
{"id": "C04", "title": "Expansion only depends on the macros it reaches", "statement": "Changing, adding or removing definitions of macros that are not reachable from a text does not change the expansion of that text.", "quantifier": "all pairs of macro tables that agree on the reachable names, all texts", "why_tests_cant": "Quantifies over all unrelated definitions.", "anchors": ["src/jomlib/macrotable.cpp: MacroTable::expandMacros"]}
{"id": "C05", "title": "Command-line macros win over the makefile", "statement": "A macro given on the command line keeps its value through any sequence of makefile assignments and predefinitions, whatever other macros do; only an explicit !UNDEF of that very macro removes it.", "quantifier": "all initial tables, all finite sequences of assignments / undefinitions of any macros", "why_tests_cant": "Requires an invariant over arbitrary histories of assignments.", "anchors": ["src/jomlib/macrotable.cpp: defineCommandLineMacroValue, setMacroValueImpl, internalSetMacroValue, undefineMacro"]}
{"id": "C06", "title": "Environment precedence", "statement": "With /E an environment macro keeps its value through any makefile assignments; without /E the last makefile assignment wins over the environment; a command-line definition wins over an environment variable of that name in both cases.", "quantifier": "all environments, command lines and assignment histories", "why_tests_cant": "All orders and contents of definitions matter.", "anchors": ["src/jomlib/macrotable.cpp: defineEnvironmentMacroValue, setMacroValueImpl", "src/jomlib/makefilefactory.cpp: readEnvironment, apply"]}
{"id": "C07", "title": "Incremental redefinition", "statement": "Assigning `A = text` where the text mentions `$(A)` stores the text with every occurrence of `$(A)` replaced by the value A had before (empty if undefined) and changes no other macro, so `A = x $(A) y` extends the old value instead of creating a cycle.", "quantifier": "all tables, names and texts", "why_tests_cant": "Quantifies over every text and every previous value.", "anchors": ["src/jomlib/macrotable.cpp: setMacroValueImpl, internalSetMacroValue"]}
{"id": "C08", "title": "Macro substitution replaces exactly the requested text", "statement": "`$(A:before=after)` yields the expanded value of A in which all non-overlapping occurrences of before, found left to right, are replaced by after and everything else is unchanged; `^` quotes the following character.", "quantifier": "all values, all before/after texts", "why_tests_cant": "Occurrences may overlap or be adjacent in unboundedly many ways.", "anchors": ["src/jomlib/macrotable.cpp: parseSubstitutionStatement, applySubstitution"]}
{"id": "C09", "title": "Redefining an environment macro reaches child processes", "statement": "When a makefile assigns a macro that came from the environment, the environment passed to the commands contains the new value (as documented for MacroTable::setMacroValue).", "quantifier": "all environments and assignment histories", "why_tests_cant": "Depends on the whole history of definitions.", "anchors": ["src/jomlib/macrotable.h: MacroTable::setMacroValue", "src/jomlib/macrotable.cpp: setMacroValueImpl, setEnvironmentVariable"]}
{"id": "C10", "title": "Lines of any length are read completely and inside the buffer", "statement": "Reading an 8-bit makefile yields its lines with their complete text whatever their length and whether or not the last line ends with a newline, and never touches memory outside the line buffer.", "quantifier": "all file contents, all sequences of buffer growth", "why_tests_cant": "Boundary lengths depend on the buffer history; memory safety is over all inputs.", "anchors": ["src/jomlib/makefilelinereader.cpp: readLine_impl_local8bit, growLineBuffer"]}
{"id": "C11", "title": "8-bit and Unicode readers agree on line continuation", "statement": "For every physical line the 8-bit reader and the Unicode reader deliver the same text and the same continuation kind (none, backslash, caret).", "quantifier": "all lines", "why_tests_cant": "Equality of two functions over all inputs.", "anchors": ["src/jomlib/makefilelinereader.cpp: readLine_impl_local8bit, readLine_impl_unicode"]}
{"id": "C12", "title": "Inline comments", "statement": "In macro definitions and directives the text from the first `#` that is not preceded by `^` is dropped, and every `^#` before it becomes `#`.", "quantifier": "all lines", "why_tests_cant": "All arrangements of `#` and `^` in a line.", "anchors": ["src/jomlib/preprocessor.cpp: Preprocessor::removeInlineComments"]}
{"id": "C13", "title": "Comment and command separator of a description block", "statement": "On a description-block line the command part starts at the first `;` outside double quotes unless a `#` outside quotes (and not escaped by `^`) comes first, in which case the rest of the line is a comment.", "quantifier": "all lines", "why_tests_cant": "All interleavings of quotes, `#`, `^#` and `;`.", "anchors": ["src/jomlib/parser.cpp: removeCommentsAndFindCommandSeparator"]}
{"id": "C14", "title": "Target name lists are split faithfully", "statement": "Splitting a list of names written with arbitrary blanks between them, where names containing blanks are enclosed in double quotes, returns exactly these names in order.", "quantifier": "all lists of names and all blank separators", "why_tests_cant": "Round trip over all name lists.", "anchors": ["src/jomlib/parser.cpp: splitTargetNames", "src/jomlib/helperfunctions.cpp: removeDoubleQuotes"]}
{"id": "C15", "title": "Wildcard recognition", "statement": "A dependent name is treated as a wildcard if and only if it contains a `*` or `?` that is not part of a file-name macro (`$*`, `$?`, `$(*`, `$(?`), and names that are not wildcards are passed through unchanged and in place.", "quantifier": "all names", "why_tests_cant": "All arrangements of quotes, escapes and wildcard characters.", "anchors": ["src/jomlib/parser.cpp: Parser::containsWildcard / wildcard expansion"]}
{"id": "C16", "title": "Command modifiers", "statement": "The leading modifier characters `-`, `-number`, `@`, `!` in any order and with any blanks are all recognised and removed; the rest of the command is unchanged; without `-` any non-zero exit code is a failure, with `-` none is, with `-n` exactly the codes above n are.", "quantifier": "all command lines", "why_tests_cant": "All modifier sequences and all remaining texts.", "anchors": ["src/jomlib/makefile.cpp: Command::evaluateModifiers"]}
{"id": "C17", "title": "Conditionals select exactly one branch", "statement": "For every well-nested !IF/!IFDEF/!IFNDEF ... !ELSEIF ... !ELSE ... !ENDIF structure of any depth, exactly the lines of the first branch whose condition holds (or of the !ELSE branch) are processed, in order, and no line of another branch has any effect.", "quantifier": "all nested block structures, all conditions, all macro tables", "why_tests_cant": "Nesting depth and number of branches are unbounded.", "anchors": ["src/jomlib/preprocessor.cpp: readLine, parsePreprocessingDirective, skipUntilNextMatchingConditional, enterConditional, exitConditional"]}
{"id": "C18", "title": "Unbalanced conditionals are always reported", "statement": "A makefile is accepted only if every !IF has a matching !ENDIF and no !ELSE/!ENDIF occurs outside a conditional.", "quantifier": "all sequences of lines", "why_tests_cant": "All sequences of directives.", "anchors": ["src/jomlib/preprocessor.cpp: readLine, exitConditional, parsePreprocessingDirective"]}
{"id": "C19", "title": "Include processing terminates", "statement": "For every finite set of files, preprocessing finishes: including a file that is currently being read is an error and every other include is read completely in place before the including file continues.", "quantifier": "all finite file sets, all include structures", "why_tests_cant": "Termination over all include graphs.", "anchors": ["src/jomlib/preprocessor.cpp: internalOpenFile, basicReadLine, readLine"]}
{"id": "C20", "title": "Preprocessor expressions: exactly the documented grammar", "statement": "The expression parser accepts a token sequence if and only if it is generated by the expression grammar, and the value it returns is the value of the (unique) parse.", "quantifier": "all token sequences", "why_tests_cant": "Expressions are unboundedly long and nested; the parser is table driven.", "anchors": ["src/jomlib/ppexpr.g", "src/jomlib/ppexpr_grammar.cpp", "src/jomlib/ppexprparser.cpp: PPExprParser::parse"]}
{"id": "C21", "title": "Preprocessor expressions: arithmetic errors are reported", "statement": "No expression makes jom crash: a division or modulo by zero is reported as an error.", "quantifier": "all expressions", "why_tests_cant": "Every operand combination.", "anchors": ["src/jomlib/ppexpr.g: T_DIV, T_MOD actions"]}
{"id": "C22", "title": "Preprocessor expressions: EXIST and DEFINED test exactly their argument", "statement": "In an expression built from several EXIST(...)/DEFINED(...) tests each test looks at the name between its own parentheses.", "quantifier": "all expressions containing EXIST and DEFINED", "why_tests_cant": "Any number of tests may appear in one expression.", "anchors": ["src/jomlib/ppexpr.l"]}
{"id": "C23", "title": "Description blocks accumulate correctly", "statement": "For any sequence of description blocks: a name denotes one target irrespective of letter case and slash direction; `:` blocks accumulate dependents and keep the first non-empty command list; `::` blocks append commands; mixing `:` and `::` for one target is an error.", "quantifier": "all sequences of description blocks", "why_tests_cant": "Arbitrary histories of blocks.", "anchors": ["src/jomlib/parser.cpp: parseDescriptionBlock, createTarget", "src/jomlib/makefile.h: Makefile::target"]}
{"id": "C24", "title": "Dependency cycles are detected exactly", "statement": "Parsing reports a dependency cycle if and only if some requested target can reach a cycle through the dependents declared in the makefile; the check terminates.", "quantifier": "all dependency structures", "why_tests_cant": "All finite graphs.", "anchors": ["src/jomlib/parser.cpp: checkForCycles"]}
{"id": "C25", "title": "The graph that is built is acyclic", "statement": "A makefile that passes the cycle check yields an acyclic build graph, so a build never silently does nothing because all targets wait for each other.", "quantifier": "all makefiles and directory prefixes", "why_tests_cant": "Interplay of two name lookups over all makefiles.", "anchors": ["src/jomlib/parser.cpp: checkForCycles", "src/jomlib/dependencygraph.cpp: internalBuild"]}
{"id": "C26", "title": ".SYNC ordering", "statement": "For a dependents line `A1.. .SYNC B1.. .SYNC C1..` all targets left of a .SYNC are finished before any target between it and the next .SYNC starts (README).", "quantifier": "all dependents lines and all iteration orders of the sync-point table", "why_tests_cant": "All placements of .SYNC and all hash orders.", "anchors": ["src/jomlib/parser.cpp: parseDescriptionBlock, apply (sync points)", "README"]}
{"id": "C27", "title": "Inference rule choice", "statement": "Among the applicable inference rules for a target the one whose source suffix comes first in .SUFFIXES is applied (the latest definition if several have the same suffix); rules whose source suffix is not in .SUFFIXES are never applied.", "quantifier": "all rule lists and .SUFFIXES lists", "why_tests_cant": "All lists.", "anchors": ["src/jomlib/makefile.cpp: applyInferenceRules, sortRulesByPriority, calculateInferenceRulePriorities"]}
{"id": "C28", "title": "Batch-mode rules cover each target exactly once", "statement": "When a batch-mode inference rule is applied to n targets with j jobs the targets are partitioned into consecutive groups of the computed size, so that each target's source occurs in exactly one command.", "quantifier": "all target lists and job numbers", "why_tests_cant": "All n and j.", "anchors": ["src/jomlib/makefile.cpp: applyInferenceRules (batch mode), addBatchModeCommands"]}
{"id": "C29", "title": "The build graph is exactly the reachable part of the makefile", "statement": "The graph for a target contains exactly the targets reachable from it; a node's children are exactly its declared dependents that are targets (each once), parents are the inverse, and the leaves are exactly the nodes without children.", "quantifier": "all makefiles and all requested targets", "why_tests_cant": "All finite graphs.", "anchors": ["src/jomlib/dependencygraph.cpp: build, internalBuild, addEdge"]}
{"id": "C30", "title": "No target starts before its dependents are done", "statement": "In every run, whenever a target's commands are started, each of its direct and indirect dependents in the graph has already been completed: it was built successfully, found up to date, or has no commands.", "quantifier": "all dependency graphs, all numbers of jobs, all schedules of process terminations and token grants, all file-time situations", "why_tests_cant": "Race conditions need all interleavings.", "anchors": ["src/jomlib/targetexecutor.cpp: startProcesses, findNextTarget, buildNextTarget, onChildFinished", "src/jomlib/dependencygraph.cpp: findAvailableTarget, removeLeaf"]}
{"id": "C31", "title": "A target is built at most once per requested target", "statement": "In every run the commands of a target are started at most once while one requested target is being built.", "quantifier": "all graphs and all schedules", "why_tests_cant": "All interleavings.", "anchors": ["src/jomlib/targetexecutor.cpp", "src/jomlib/dependencygraph.cpp"]}
{"id": "C32", "title": "Never more than -j jobs", "statement": "At any time at most `-j` targets of one jom process are being built and the pool of executors is never over-drawn.", "quantifier": "all graphs, all -j values >= 1, all schedules", "why_tests_cant": "All interleavings.", "anchors": ["src/jomlib/targetexecutor.cpp: TargetExecutor, startProcesses, buildNextTarget, onChildFinished"]}
{"id": "C33", "title": "Nested joms share the job limit", "statement": "In a tree of joms sharing one job server started with -j N the number of running processes that are not joms themselves never exceeds N, in every schedule without a failed build.", "quantifier": "all trees of nested joms, all schedules, all N >= 1", "why_tests_cant": "Distributed interleavings of several processes.", "anchors": ["src/jomlib/targetexecutor.cpp: startProcesses, onChildFinished", "src/jomlib/jobclient.cpp", "src/jomlib/jobserver.cpp: start"]}
{"id": "C34", "title": "Job tokens are returned exactly once", "statement": "When a jom ends it has given back exactly as many tokens as it took, also when the build is aborted by a failing command.", "quantifier": "all schedules, including aborts at any moment", "why_tests_cant": "Abort may happen at any point of any interleaving.", "anchors": ["src/jomlib/targetexecutor.cpp: onChildFinished, waitForJobClient", "src/jomlib/jobclient.cpp"]}
{"id": "C35", "title": "A failure stops the build", "statement": "Without /K, after a command failed no further target is started and the build ends with exit code 2 (unless an exception had ended it before).", "quantifier": "all graphs and all schedules", "why_tests_cant": "All interleavings.", "anchors": ["src/jomlib/targetexecutor.cpp: onChildFinished, finishBuild"]}
{"id": "C36", "title": "/K skips exactly the targets that depend on a failure", "statement": "With /K no target that depends directly or indirectly on a failed target is started, every other target is still processed, and the exit code is 1.", "quantifier": "all acyclic graphs (others are rejected before, C24) and all schedules", "why_tests_cant": "All interleavings and failure sets.", "anchors": ["src/jomlib/targetexecutor.cpp: onChildFinished, findNextTarget", "src/jomlib/dependencygraph.cpp: markParentsRecursivlyUnbuildable"]}
{"id": "C37", "title": "Exit code 0 means everything was built", "statement": "If the build ends with exit code 0 no command failed and every target of the graph was completed (built, up to date or without commands).", "quantifier": "all acyclic graphs and all schedules", "why_tests_cant": "All interleavings.", "anchors": ["src/jomlib/targetexecutor.cpp: startProcesses, finishBuild"]}
{"id": "C38", "title": "The scheduler neither deadlocks nor runs forever", "statement": "From every reachable state in which the build is not finished some event is possible, and every run has finite length.", "quantifier": "all acyclic graphs and all schedules", "why_tests_cant": "Liveness over all interleavings.", "anchors": ["src/jomlib/targetexecutor.cpp: startProcesses, buildNextTarget, onChildFinished"]}
{"id": "C39", "title": "Output of concurrent jobs is kept apart", "statement": "At any time at most one executor writes its child's output directly (all others buffer) and at least one executor is unbuffered, so output of concurrent jobs is not interleaved and not withheld.", "quantifier": "all schedules", "why_tests_cant": "All interleavings.", "anchors": ["src/jomlib/targetexecutor.cpp: onChildFinished (buffered output handover)", "changelog"]}
{"id": "C40", "title": "Buffered output is printed completely and in order", "statement": "When the output of a job is flushed every buffered chunk of both channels is written exactly once, each channel in its original order and the two channels merged by time stamp.", "quantifier": "all chunk sequences with arbitrary time stamps", "why_tests_cant": "All sequences.", "anchors": ["src/jomlib/jomprocess.cpp: printBufferedOutput"]}
{"id": "C41", "title": "Out-of-date decision", "statement": "A target is considered up to date exactly if its file exists and no dependent is missing or newer; a target without file, or with a missing dependent that has commands, is rebuilt.", "quantifier": "all file systems, time stamps and dependent lists", "why_tests_cant": "All assignments of times.", "anchors": ["src/jomlib/dependencygraph.cpp: isTargetUpToDate"]}
{"id": "C42", "title": "Commands of a target run in order and stop at the first failure", "statement": "The commands of a target are executed one at a time in makefile order; the first one whose exit code exceeds its limit ends the target as failed and later commands of it are not run; otherwise all run and the target succeeds.", "quantifier": "all command lists and all exit codes", "why_tests_cant": "All exit-code sequences.", "anchors": ["src/jomlib/commandexecutor.cpp: start, onProcessFinished, executeCurrentCommandLine, finishExecution"]}
{"id": "C43", "title": "Dry run runs nothing", "statement": "With /N no process is started and no builtin takes effect, every command is printed, and the target is reported successful.", "quantifier": "all command lists", "why_tests_cant": "All command lists.", "anchors": ["src/jomlib/commandexecutor.cpp: executeCurrentCommandLine"]}
{"id": "C44", "title": "Inline files", "statement": "Every inline file gets a name different from all existing files, its content is written completely before the first command runs, files without KEEP are removed after the target and KEEP files stay; the n-th `<<` is replaced by the n-th file's name.", "quantifier": "all commands, inline files and file systems", "why_tests_cant": "All file-system states.", "anchors": ["src/jomlib/commandexecutor.cpp: createTempFiles, cleanupTempFiles"]}
{"id": "C45", "title": "`set` affects all later commands", "statement": "After a `set` builtin every executor uses the same environment containing the new value, for any sequence of `set` commands on any executors.", "quantifier": "all sequences of set commands and executors", "why_tests_cant": "All histories.", "anchors": ["src/jomlib/commandexecutor.cpp: exec_set", "src/jomlib/targetexecutor.cpp: TargetExecutor (environmentChanged connections)"]}
{"id": "C46", "title": "Environment block encoding", "statement": "The environment handed to a child process decodes to exactly the variables of the environment map and is correctly double-NUL terminated.", "quantifier": "all environments", "why_tests_cant": "All variable sets.", "anchors": ["src/jomlib/jomprocess.cpp: createEnvBlock"]}
{"id": "C47", "title": "MAKEFLAGS reproduces the options", "statement": "Passing the MAKEFLAGS value to another jom sets the same options (other than /F, /X and macros) as the command line that produced it.", "quantifier": "all command lines", "why_tests_cant": "All option sequences.", "anchors": ["src/jomlib/options.cpp: readCommandLineArguments, handleCommandLineOption"]}
{"id": "C48", "title": "Accepted -j values are usable", "statement": "If option parsing succeeds the number of jobs is at least 1, and a malformed or too large -j argument is rejected.", "quantifier": "all command lines", "why_tests_cant": "All arguments.", "anchors": ["src/jomlib/options.cpp: handleCommandLineOption (J)"]}
{"id": "C49", "title": "Command lines split back into their arguments", "statement": "Quoting arguments and joining them with blanks is undone by splitCommandLine.", "quantifier": "all argument lists", "why_tests_cant": "Round trip.", "anchors": ["src/jomlib/helperfunctions.cpp: splitCommandLine"]}
{"id": "C50", "title": "File information is fresh after a rebuild", "statement": "After a target's commands ran, the next query of that file's existence or time reports the state on disk; every query reports the state on disk at some moment since the last invalidation.", "quantifier": "all sequences of queries, invalidations and disk changes", "why_tests_cant": "All histories.", "anchors": ["src/jomlib/fastfileinfo.cpp", "src/jomlib/targetexecutor.cpp: onChildFinished"]}
{"id": "C51", "title": "File-name macros", "statement": "`$@`, `$*`, `$**`, `$?`, `$<` with or without parentheses and D/F/B/R modifiers are replaced by the corresponding names and all other text of the command is unchanged.", "quantifier": "all command texts and targets", "why_tests_cant": "All arrangements of macros in a command.", "anchors": ["src/jomlib/makefile.cpp: expandFileNameMacros, getFileNameMacroValues"]}
{"id": "C52", "title": "A sub-jom joins the job server unless told otherwise", "statement": "A jom started inside another jom uses the inherited job server unless it was given its own different -j value, and every top-level jom with -j > 1 starts a server with exactly j-1 tokens.", "quantifier": "all option and environment combinations", "why_tests_cant": "All combinations.", "anchors": ["src/app/main.cpp: initJobServer", "src/jomlib/jobserver.cpp"]}
{"id": "C53", "title": "Nested joms do not deadlock", "statement": "As long as the outermost jom of a tree of joms sharing one job server has not ended and no build was aborted, some process of the tree can make progress: the joms never all wait for tokens or for each other.", "quantifier": "all trees of nested joms, all schedules, all N >= 1", "why_tests_cant": "Deadlock freedom over all interleavings of several processes.", "anchors": ["src/jomlib/targetexecutor.cpp: startProcesses, onChildFinished", "src/jomlib/jobclient.cpp", "src/jomlib/jobserver.cpp: start"]}
{"id": "C54", "title": "A target built by a batch command is finished when that command is", "statement": "A target whose commands come from a batch-mode inference rule counts as built only when the command that builds it has finished: a target that depends on it is not started before.", "quantifier": "all batch rules, all target lists, all numbers of jobs, all schedules", "why_tests_cant": "Depends on the number of jobs, the grouping and the schedule.", "anchors": ["src/jomlib/makefile.cpp: applyInferenceRule(QList<DescriptionBlock*>&, const InferenceRule*)", "src/jomlib/targetexecutor.cpp: findNextTarget"]}
{"id": "C55", "title": "Options mean the same in every grouping", "statement": "An accepted command line sets exactly what its options ask for: every letter its own switch, in capital or small letters, grouped into one argument or spread over several, mixed with long options, macro definitions and targets; the last /F, /X and /J count and /I overrides /K. Every list of known options with usable job numbers is accepted and nothing unknown is.", "quantifier": "all command lines", "why_tests_cant": "All groupings and orders of options.", "anchors": ["src/jomlib/options.cpp: readCommandLineArguments, handleCommandLineOption, expandCommandFiles"]}
{"id": "C56", "title": "The first definition of a command line macro counts", "statement": "If a macro is defined more than once on the command line, the makefile sees the value of the first definition.", "quantifier": "all command lines", "why_tests_cant": "All orders of definitions, options and targets.", "anchors": ["src/jomlib/options.cpp: readCommandLineArguments", "src/jomlib/macrotable.cpp: defineCommandLineMacroValue"]}
{"id": "C57", "title": "Command files stand for their words", "statement": "An argument @file (or @\"file\") of the command line means the same as the words of the file written in its place; references to command files inside of command files are ignored.", "quantifier": "all command lines and contents of command files", "why_tests_cant": "All orders of arguments and all file contents.", "anchors": ["src/jomlib/options.cpp: expandCommandFiles"]}
{"id": "C58", "title": "No output of a command is lost", "statement": "Everything a command writes to standard output or standard error before it ends appears in jom's output on the same channel, exactly once and in order.", "quantifier": "all interleavings of writes, completed reads, mode switches and the end of the command", "why_tests_cant": "Depends on the race between the completion of a pipe read and the signalling of the process handle.", "anchors": ["src/jomlib/jomprocess.cpp: tryToRetrieveExitCode, onProcessFinished, OutputChannel::completionPortNotified"]}
{"id": "C59", "title": "`cd` decides where later commands run", "statement": "After a successful `cd` every later command of the same target runs in that directory until the next `cd`; the commands of every other target begin in the directory jom was started in. A `cd` to a directory that does not exist fails and changes nothing.", "quantifier": "all command lists and exit codes", "why_tests_cant": "All sequences of commands and directories.", "anchors": ["src/jomlib/commandexecutor.cpp: exec_cd, executeCurrentCommandLine, start"]}
{"id": "C60", "title": "The command line that is started is the one of the makefile", "statement": "A command that is neither a comment nor one of the builtins `cd` and `set` is shown unless silent and started exactly once: as it is if it has no shell syntax and is not an internal command of the shell, otherwise as argument of the command interpreter. Nothing else is started.", "quantifier": "all command texts, states and answers of the system", "why_tests_cant": "All command texts and all failures to start.", "anchors": ["src/jomlib/commandexecutor.cpp: executeCurrentCommandLine, isSimpleCommandLine, startsWithShellBuiltin, spawnProcess"]}
{"id": "C61", "title": "The modifier `!` repeats a command for each dependent", "statement": "A command with `!` that refers to `$**` is executed once for each dependent in order, with `$**` standing for that dependent; with `$?` once for each dependent newer than the target; a command with `!` that refers to neither is executed once. Commands without `!` are executed once.", "quantifier": "all targets, dependents and commands", "why_tests_cant": "All command texts and dependents.", "anchors": ["src/jomlib/makefile.cpp: DescriptionBlock::expandFileNameMacros", "src/jomlib/makefile.h: Command::m_singleExecution"]}
{"id": "C62", "title": "A makefile is read as it is written", "statement": "If the lines delivered by the preprocessor form a sequence of directives, inference rules and description blocks, parsing collects exactly these items in order: every block with its targets, dependents and commands, every rule with its paths, extensions and commands, every suffix and precious target; ignoring of exit codes and silence are on exactly if an option or an item says so. Parsing fails only if the blocks contradict each other. Conversely, every makefile that is accepted is such a sequence.", "quantifier": "all makefiles, states of the reader, options", "why_tests_cant": "All sequences of items and all line contents.", "anchors": ["src/jomlib/parser.cpp: Parser::apply, parseRule, parseDescriptionBlock, parseCommands, parseCommandLine, parseInferenceRule"]}
{"id": "C63", "title": "Inline files end at the line `<<`", "statement": "A command with `<<name` gets for each such name, in order, exactly the lines up to the next line that starts with `<<`; the words KEEP and UNICODE there set the options of that file; reading goes on behind it; the command line keeps `<<` without the name. A command whose inline files are not closed is rejected.", "quantifier": "all command texts, file contents and numbers of inline files", "why_tests_cant": "All texts with any number of markers.", "anchors": ["src/jomlib/parser.cpp: parseCommandLine, parseInlineFile"]}
{"id": "C64", "title": "Dot directives are recognised by their syntax", "statement": "A line is a dot directive exactly if it consists of the name, optional blanks, a colon and values; its values are the words behind the colon; comments are not values.", "quantifier": "all lines", "why_tests_cant": "All texts.", "anchors": ["src/jomlib/parser.cpp: isDotDirective, parseDotDirective"]}
{"id": "C65", "title": "Inference rules are recognised by their syntax", "statement": "A line is an inference rule exactly if it is `{path}.ext{path}.ext:` or with `::`; its paths, extensions and batch mode are those written. Blanks or a comment behind the colon make no difference.", "quantifier": "all lines", "why_tests_cant": "All texts.", "anchors": ["src/jomlib/parser.cpp: isInferenceRule, parseInferenceRule"]}
{"id": "C66", "title": "The first separating colon divides targets and dependents", "statement": "Targets are what is in front of the first colon that is neither inside parentheses (macro references) nor behind a drive letter; the rest are dependents; `::` is one separator; what is behind a `;` belongs to the command. Every target name can be written this way.", "quantifier": "all lines", "why_tests_cant": "All positions of colons.", "anchors": ["src/jomlib/parser.cpp: isDescriptionBlock"]}
{"id": "C67", "title": ".NOTPARALLEL disables parallel execution", "statement": "If and only if a makefile describes `.NOTPARALLEL`, the number of jobs is 1 whatever `-j` says, and at no time more than one target is being built.", "quantifier": "all makefiles, numbers of jobs and executions of the scheduler", "why_tests_cant": "All interleavings.", "anchors": ["src/jomlib/parser.cpp: parseDescriptionBlock", "src/app/main.cpp: runJom"]}
{"id": "C68", "title": "A build of something that is up to date does nothing", "statement": "If every target that is requested or needed and can be made is up to date in terms of the files (its file exists, nothing it depends on is missing, no file behind a dependent is newer), then jom starts no command, prints no error, changes no file and ends with exit code 0.", "quantifier": "all makefiles (tables of targets), files and times, numbers of jobs and requested targets, inference rules and orders of events", "why_tests_cant": "All dependency graphs, file times and interleavings; pseudo-targets, inference rules and several requested targets at once.", "anchors": ["src/jomlib/dependencygraph.cpp: isTargetUpToDate, findAvailableTarget", "src/jomlib/targetexecutor.cpp: startProcesses, findNextTarget", "src/jomlib/makefile.cpp: applyInferenceRules, invalidateTimeStamps", "src/jomlib/fastfileinfo.cpp"]}
{"id": "C69", "title": "Exit code 0 means up to date; a second build does nothing", "statement": "If the commands do their work (a successful command leaves its target's file no older than what it depends on, and writes no other mentioned file) and jom ends with exit code 0, then every requested or needed target is up to date in terms of the files as they are then, and a second run of jom for these targets starts no command, changes no file and ends with exit code 0.", "quantifier": "all unambiguous makefiles (tables of targets), initial files and times, numbers of jobs, requested targets, inference rules, behaviours of the commands and orders of events, in both runs", "why_tests_cant": "All dependency graphs, initial file times, stale caches, interleavings of commands and graphs of several requested targets; the guarantee is about the fixed point of every successful build.", "anchors": ["src/jomlib/dependencygraph.cpp: isTargetUpToDate, findAvailableTarget, removeLeaf", "src/jomlib/targetexecutor.cpp: startProcesses, findNextTarget, onChildFinished", "src/jomlib/makefile.cpp: applyInferenceRules, invalidateTimeStamps", "src/jomlib/fastfileinfo.cpp"]}
{"id": "C70", "title": "What is built is determined by the makefile", "statement": "After parsing, and before anything is executed: the first requested name that the makefile does not describe is reported; if none is requested, the target described first is taken; if a dependency cycle can be reached from the requested targets, a target on a cycle is reported; otherwise the targets are exactly the described ones and those names among the transitive dependents of the requested targets that some inference rule fits, each target without commands has exactly the fitting rules as candidates (and the rule of C27 is chosen among them), and the requested targets are built in the order given.", "quantifier": "all description blocks, inference rules, suffix lists, lists of requested targets, and iteration orders of the hash tables", "why_tests_cant": "All dependency graphs with and without cycles, combinations of described targets and inference rules, spellings of names, and hash orders; the preselection mutates the table while it walks it.", "anchors": ["src/jomlib/parser.cpp: Parser::apply (108-158), preselectInferenceRules, checkForCycles, findRulesByTargetName", "src/jomlib/targetexecutor.cpp: TargetExecutor::apply", "src/jomlib/makefile.h: Makefile::target"]}
{"id": "C71", "title": "A dependent that cannot be made is an error before anything is executed", "statement": "If a target that is named (directly or through dependents) from the first requested target has a dependent that is no target and does not exist as a file, then no command is executed at all and jom ends with exit code 2.", "quantifier": "all makefiles, inference rules, requested targets, files, numbers of jobs, options and orders of events", "why_tests_cant": "All dependency graphs and positions of the missing dependent, all interactions with inference rules; the absence of any execution is about every possible run.", "anchors": ["src/jomlib/dependencygraph.cpp: internalBuild (182-218)", "src/jomlib/parser.cpp: preselectInferenceRules", "src/jomlib/targetexecutor.cpp: TargetExecutor::apply, findNextTarget (203-222)", "src/jomlib/makefile.cpp: applyInferenceRules"]}
{"id": "C72", "title": "Only needed targets are executed, once, after their dependents", "statement": "From the text-level description of targets and rules to execution: whatever the commands do and in whatever order they end, a target whose commands are started is needed for the requested target being built (through dependents or sources of candidate rules), it has commands of its own or a candidate inference rule, it was not started before for this requested target, and each of its dependents that is a target was made, found up to date or has nothing to do before. (With /K: for makefiles in which a target that is the source of a candidate rule is a declared dependent and no dependent is found through the directory of the makefile.) (For makefiles in which no dependent is enclosed in double quotes after the expansion of macros; see C76 for what happens to these.)", "quantifier": "all makefiles, inference rules, suffix lists, requested targets, files, numbers of jobs, options, behaviours of commands and orders of events", "why_tests_cant": "Composition of parsing, preselection, graph construction, inference during the build and scheduling, over all graphs and interleavings.", "anchors": ["src/jomlib/parser.cpp: Parser::apply (108-158)", "src/jomlib/dependencygraph.cpp: build, findAvailableTarget, removeLeaf", "src/jomlib/targetexecutor.cpp: apply, startProcesses, findNextTarget, onChildFinished", "src/jomlib/makefile.cpp: applyInferenceRules"]}
{"id": "C73", "title": "Exit code 0 means that everything requested has been dealt with", "statement": "If jom ends with exit code 0 then no target has failed, no command is running, and for every requested target all targets among its direct and indirect dependents, and itself, have been made, found up to date, or have nothing to do.", "quantifier": "all makefiles, inference rules, requested targets, files, numbers of jobs, options, behaviours of commands and orders of events", "why_tests_cant": "All graphs, several requested targets in one run, inference rules that add dependents between the builds, all interleavings.", "anchors": ["src/jomlib/targetexecutor.cpp: startProcesses, finishBuild", "src/jomlib/dependencygraph.cpp: build, findAvailableTarget", "src/jomlib/makefile.cpp: applyInferenceRules, invalidateTimeStamps", "src/jomlib/parser.cpp: checkForCycles"]}
{"id": "C74", "title": "An incremental build gives the same results as one from scratch", "statement": "Assume that the commands follow recipes (what a command leaves in the file of its target depends only on the contents of the files from which the target is made), that what is written during the run is newer than what was there before, and that files that look up to date at the start have the right content. Then exit code 0 means that every wanted target that can be made has the content that its recipe gives for the present contents of the files it is made from; and two such runs of jom that start from the same source files, e.g. one with old files of targets and one without, with any numbers of jobs, end with the same contents of all wanted targets that can be made.", "quantifier": "all makefiles and inference rules (unambiguous names, no /A), all files and contents, all recipes, all numbers of jobs, all behaviours of commands and orders of events", "why_tests_cant": "The claim compares two whole runs over all graphs, file times, interleavings and recipes; a test compares a few.", "anchors": ["src/jomlib/dependencygraph.cpp: isTargetUpToDate (103-180), findAvailableTarget (300-342)", "src/jomlib/targetexecutor.cpp: startProcesses, findNextTarget, onChildFinished (224-262)", "src/jomlib/fastfileinfo.cpp: FastFileInfo, clearCacheForFile", "src/jomlib/makefile.cpp: applyInferenceRules, invalidateTimeStamps"]}
{"id": "C75", "title": "What a dependent with wildcards stands for", "statement": "A dependent with wildcards is replaced by one dependent for each file that matches it, in the order found: relative patterns are searched in the folder they name relative to the folder of the makefile and each result is the pattern with the name of the file in place of its last component; patterns with a full path are searched there; and each resulting dependent is a name of the file found for a process that runs in the folder of the makefile.", "quantifier": "all folder contents, all folders of makefiles, all patterns (both separators, relative, with drive, rooted)", "why_tests_cant": "All combinations of paths where one is a prefix of the other, letter case, separators and positions of wildcards.", "anchors": ["src/jomlib/parser.cpp: expandWildcards (359-390)", "src/jomlib/makefile.cpp: Makefile::dirPath (437-444)"]}
{"id": "C76", "title": "From the text of a makefile to execution", "statement": "For every text that is accepted as a makefile: it consists of directives, inference rules and description blocks; if a target is started then all its commands stand in description blocks of the text whose target lists contain this target, or it has no commands and an inference rule of the text fits its name; it is needed for the requested target being built, is started once for it, and after its dependents; and if jom ends with exit code 0 then every target with a description block in the text that is named from a requested target has been dealt with and nothing has failed.", "quantifier": "all makefile texts, included files and macros, folder contents, requested targets, files, numbers of jobs, options, behaviours of commands and orders of events", "why_tests_cant": "Composition of preprocessor, parser, wildcard expansion, target table, preselection, graph construction and scheduling, over all texts and interleavings.", "anchors": ["src/jomlib/makefilefactory.cpp: MakefileFactory::apply (159-168)", "src/jomlib/preprocessor.cpp: Preprocessor::readLine", "src/jomlib/parser.cpp: Parser::apply (56-158)", "src/app/main.cpp: 205-219", "src/jomlib/targetexecutor.cpp", "src/jomlib/dependencygraph.cpp"]}
{"id": "C77", "title": "The environment of the commands", "statement": "The commands of a build see the environment of jom: a variable that jom inherited has the same value for the commands whatever the makefile does, a variable that jom does not have is not there, and a macro defined on the command line is a variable of the commands with the value written there; `_JOMSRVKEY_` and `_JOMJOBCOUNT_` are jom's own.", "quantifier": "all environments, command lines (including JOMFLAGS, MAKEFLAGS and command files) and makefiles, /E or not", "why_tests_cant": "All names, values and assignments, with names compared without letter case in two tables that are kept in step.", "anchors": ["src/jomlib/makefilefactory.cpp: setEnvironment, readEnvironment (46-68), apply (97-176)", "src/jomlib/macrotable.cpp: defineEnvironmentMacroValue, setMacroValueImpl", "src/app/main.cpp: 157-201", "src/jomlib/options.cpp: handleCommandLineOption, the macro arguments"]}
{"id": "C78", "title": "From the command line to the exit code", "statement": "A wrong command line (unknown option, unusable number of jobs, invalid macro name, unreadable command file), and no other, ends jom with 128 before anything is executed; help and version end it with 0; a missing makefile with 2; otherwise the makefile of the last /F (or Makefile) is read and built with the targets, /K, /A, /I, /C and number of jobs of the command line, so that never more commands run at once than asked for, and exit code 0 of a build means that everything the makefile says about the targets asked for has been dealt with and no command has failed.", "quantifier": "all command lines, environments, makefiles, files, behaviours of commands and orders of events", "why_tests_cant": "Composition of the option parser, makefile factory, preprocessor, parser, preparation and scheduler over all inputs and interleavings.", "anchors": ["src/app/main.cpp: 100-113, 149-235", "src/jomlib/makefilefactory.cpp: 97-176", "src/jomlib/options.cpp", "src/jomlib/targetexecutor.cpp"]}
{"id": "C79", "title": "/DUMPGRAPH executes nothing", "statement": "With /DUMPGRAPH (or /DUMPGRAPHDOT) jom displays the dependency graph and ends without executing a command.", "quantifier": "all makefiles, targets, files, numbers of jobs and orders of events", "why_tests_cant": "Absence of an effect on all schedules; depends on which calls are queued before the event loop runs.", "anchors": ["src/jomlib/targetexecutor.cpp: 104-117", "src/app/main.cpp: 213-219"]}
{"id": "C80", "title": "Macros at the first line of the makefile", "statement": "When the makefile is read a macro of the command line has the value given there, in spite of environment and predefinitions, and keeps it; otherwise a variable of the environment is a macro with its name in capital letters and its value; otherwise the predefined macros (tools, their flags, MAKE and MAKEDIR as paths that can be used in a command) have their values unless /R is given; and no other macro is defined.", "quantifier": "all environments, command lines (including JOMFLAGS, MAKEFLAGS and command files), paths of jom and current folders", "why_tests_cant": "All combinations of the three sources, options and names with and without capital letters.", "anchors": ["src/jomlib/makefilefactory.cpp: readEnvironment (63-68), isComplexPathName, encloseInDoubleQuotesIfNeeded (73-95), apply (134-157)", "src/jomlib/macrotable.cpp: defineEnvironmentMacroValue, predefineValue", "src/jomlib/options.cpp: readCommandLineArguments"]}
{"id": "C81", "title": "Flags in the environment", "statement": "The flags in the variable JOMFLAGS (or MAKEFLAGS if that is not set or empty), with or without a minus sign, have the same effect as the same options in front of the others on the command line.", "quantifier": "all environments and command lines", "why_tests_cant": "All groups of options and environments.", "anchors": ["src/app/main.cpp: getCommandLineArguments (100-113)"]}
{"id": "C82", "title": "From the text of a makefile to its targets", "statement": "What jom collects from a makefile (targets with dependents and commands, inference rules, suffixes, switches) is exactly what stands in the branches of its conditionals that are taken, in the files it includes, and in the inline files of its commands, in this order; the condition of an !IF holds exactly if the value of its expression, with the macros defined up to that line, is not zero.", "quantifier": "all texts, nestings of conditionals and includes, expressions, inline files, macro definitions in between", "why_tests_cant": "Preprocessor, expression parser and parser take turns on one text: the parser switches the reader to inline files while conditionals are open. All interleavings cannot be enumerated.", "anchors": ["src/jomlib/parser.cpp: apply, readLine (56-167)", "src/jomlib/preprocessor.cpp: readLine, basicReadLine, evaluateExpression", "src/jomlib/ppexpr.l", "src/jomlib/makefilelinereader.cpp"]}
{"id": "C83", "title": "Every process is reported exactly once", "statement": "Whatever the order of notifications of the operating system, packets of the completion port, queued calls and timers: the processes a Process object starts are reported as finished in the order in which they were started, each exactly once, not before it has ended, and with its own exit code; a process that has ended is reported when its handle is signalled; when all processes have been reported jom stops asking for exit codes.", "quantifier": "all interleavings of starts (successful or not), writes, ends of pipes, ends of processes, completions of reads, deliveries, notifications, queued calls and timers", "why_tests_cant": "The order of events of two threads and of the operating system cannot be controlled by a test; duplicate or missing signals show only in rare orders.", "anchors": ["src/jomlib/jomprocess.cpp: start, tryToRetrieveExitCode, onProcessFinished (347-444), completionPortNotified (522-544)", "src/jomlib/iocompletionport.cpp: run (85-115)"]}
{"id": "C84", "title": "The output of a command is the output of its process", "statement": "What jom takes for the output of a command is, per channel, what the process of this command has written, in the order written, nothing twice and nothing of another process; as long as the process runs everything it has written can still be read.", "quantifier": "all interleavings as in C83, all texts, all sizes of the pieces in which the data arrives", "why_tests_cant": "The buffer of a read, its OVERLAPPED structure and the key of its packet are used again for the next process; only rare orders of events of two threads reveal whether they get mixed up.", "anchors": ["src/jomlib/jomprocess.cpp: start, onProcessFinished (347-444), startRead, completionPortNotified (470-544)", "src/jomlib/iocompletionport.cpp: registerObserver, unregisterObserver, run (64-115)"]}
{"id": "C85", "title": "Logical lines", "statement": "A line that ends in a backslash or a caret is continued on the next line that is no comment line. The parser gets the logical line as a whole: its parts joined by a blank (backslash) or a line feed (caret), without the blanks at the beginning of continuations; if it defines a macro it does that and nothing else. The parts of a directive that is continued are joined with nothing between them, except that a caret stays.", "quantifier": "all texts, numbers of continuations, comment lines in between, states of the preprocessor", "why_tests_cant": "The number and the contents of the continuations are unbounded, and escapes at the ends of lines (^\\, \\\\) interact with them.", "anchors": ["src/jomlib/preprocessor.cpp: readLine, joinLines, joinPreprocessingDirectiveLines, completeLineImpl (96-205)", "src/jomlib/makefilelinereader.cpp: readLine_impl_unicode, readLine_impl_local8bit"]}
{"id": "C86", "title": "Which lines define macros; arguments of directives", "statement": "A line defines a macro exactly if it begins with a letter, a digit, _ or $ and has an equals sign outside parentheses before which there is neither a colon nor another equals sign outside parentheses; name and value are the texts on both sides without blanks at their ends, the value without comment. The argument of a directive is what stands behind its name after macro expansion, with its macros expanded again and without comment.", "quantifier": "all lines, macro tables", "why_tests_cant": "Equivalence over all lines; parentheses, colons, escapes of # and blanks combine without bound.", "anchors": ["src/jomlib/preprocessor.cpp: parseMacro (207-246), isPreprocessingDirective (374-420)"]}
{"id": "C87", "title": "The recipe of a target is executed like a script", "statement": "When the commands of a target are executed, what is to be seen (the lines shown, and the command line, working directory and environment of every process started, in order) and whether the target succeeds is what the recipe says when read as a script: file name macros and ! are expanded for the target, << is replaced by the names of the inline files, comments do nothing, cd and set change directory and variables for the lines after them, every other line is one process - directly or by the shell - and the script stops at the first exit code above the limit of its line.", "quantifier": "all targets, recipes, exit codes, environments, file systems", "why_tests_cant": "Interaction of all steps of execution over unboundedly many recipes and exit codes; a unit test fixes one recipe.", "anchors": ["src/jomlib/commandexecutor.cpp: start (71-90), onProcessFinished (99-125), executeCurrentCommandLine (154-255), createTempFiles (257-312), exec_cd (351-391)", "src/jomlib/makefile.cpp: DescriptionBlock::expandFileNameMacros (141-302)"]}
{"id": "C88", "title": "The encoding of a makefile does not matter", "statement": "A makefile in UTF-8 or UTF-16 is read like the same text in an 8-bit file: the same lines, each with the same line number, in whatever pieces the file is taken in; this holds for lines of inline files too.", "quantifier": "all texts, sizes of pieces, sequences of reads", "why_tests_cant": "Two implementations (with a read-ahead buffer in one) compared over all texts and interleavings of the two read modes.", "anchors": ["src/jomlib/makefilelinereader.cpp: readLine (91-99), readLine_impl_local8bit (104-157), readLine_impl_unicode (163-189)"]}
{"id": "C89", "title": "Positions in error messages", "statement": "The file name and line number shown with an error of the preprocessor or parser are those of the physical line read last: for a line, the place where it (or its last continuation) stands; for a directive, the place of its last part; also behind included files, comments and inline files.", "quantifier": "all makefiles, included files, conditionals, sequences of reads", "why_tests_cant": "An invariant over unbounded sequences of reads, includes and returns from includes.", "anchors": ["src/jomlib/makefilelinereader.cpp: m_nLineNumber (94, 108, 168)", "src/jomlib/preprocessor.cpp: lineNumber, currentFileName, basicReadLine, error (125-156, 495-498)", "src/jomlib/exception.cpp: FileException::toString (49-66)"]}
{"id": "C90", "title": "Commands from inference rules", "statement": "A target that an inference rule is applied to gets the source file as a dependent (once) and the commands of the rule in their order: macros are expanded, then the modifiers are taken off, then $< is replaced by the source everywhere, in the command lines and in the texts of inline files, whose names and flags stay; in batch mode the first target of a group gets them with the sources of the whole group. A rule can be applied whenever its texts have a meaning.", "quantifier": "all rules, macro tables, targets, groups", "why_tests_cant": "All command texts and macro tables; order of expansion, modifiers and replacement matters only for some of them.", "anchors": ["src/jomlib/makefile.cpp: applyInferenceRule (608-639, 641-669)"]}
{"id": "C91", "title": "Dump of the dependency graph", "statement": "/DUMPGRAPH shows the dependencies of the first requested target as an outline: every way from it through its dependents has exactly one line, indented by the number of steps, below the line of the way without the last step. /DUMPGRAPHDOT shows exactly the declared dependencies of the reachable targets, from which the names can be read off. The dump ends if and only if no target depends on itself.", "quantifier": "all makefiles, all names", "why_tests_cant": "All graphs: order and indentation depend on the shape; the size grows exponentially with the depth of shared dependents.", "anchors": ["src/jomlib/dependencygraph.cpp: dump, internalDump, dotDump, internalDotDump (220-253)", "src/jomlib/targetexecutor.cpp: apply (107-112)"]}
{"id": "C92", "title": "No temporary file survives jom", "statement": "An inline file without KEEP does not exist any more when jom has ended, in whatever order the executors worked and whatever the processes did, unless somebody else wrote it again; files with KEEP are there with their content; all other files are as the processes have left them. This holds for a normal end, a failed build and Ctrl-C.", "quantifier": "all numbers of executors, all interleavings of targets and processes, all ways to end", "why_tests_cant": "Depends on interleavings of executors and on the way jom ends.", "anchors": ["src/jomlib/commandexecutor.cpp: start, createTempFiles, cleanupTempFiles (66-90, 257-321)", "src/jomlib/targetexecutor.cpp: removeTempFiles (274-283)", "src/app/main.cpp: ConsoleCtrlHandlerRoutine (86-98)"]}
{"id": "C93", "title": "The dry run shows what a build would do", "statement": "With /N jom changes no file, nothing fails, and it shows the commands of exactly those targets that are needed, can be made and are not up to date with the files as they are. Every target that is shown is made by every build with the same files that ends with exit code 0. If nothing is shown, a build executes nothing. (False: that a build makes only what is shown; a target that becomes out of date only because another one is made is not shown if its file is newer than the old file of the other one.)", "quantifier": "all makefiles (unambiguous, acyclic), all file times, all orders of events of both runs, any number of jobs, any number of requested targets", "why_tests_cant": "Compares two runs over all schedules, makefiles and file times.", "anchors": ["src/jomlib/commandexecutor.cpp: executeCurrentCommandLine (159-177)", "src/jomlib/dependencygraph.cpp: isTargetUpToDate (109-180), findAvailableTarget (300-342)", "src/jomlib/targetexecutor.cpp: startProcesses, findNextTarget"]}
{"id": "C94", "title": "A build makes what is out of date and what depends on it, and nothing else", "statement": "A target is made only if a requested target needs it and it, or something it needs directly or indirectly, was out of date when jom began. Every needed target that can be made and was out of date when jom began has been made when jom ends with exit code 0. So, when jom ends with exit code 0, the targets that were made are exactly those that are needed, can be made, and were out of date or need one that was.", "quantifier": "all makefiles (unambiguous, acyclic), all file times, all orders of events, any number of jobs, all behaviours of commands that write only their own targets", "why_tests_cant": "Speaks about every schedule of every makefile; a superfluous rebuild shows up only for special file times and orders.", "anchors": ["src/jomlib/dependencygraph.cpp: isTargetUpToDate (109-180), findAvailableTarget (300-342), removeLeaf", "src/jomlib/targetexecutor.cpp: startProcesses, findNextTarget, onChildFinished", "src/jomlib/makefile.cpp: invalidateTimeStamps (577-586)"]}
{"id": "C95", "title": "With /K everything that does not depend on a failed target is made", "statement": "When jom with /K has ended (with exit code 0 or 1 and without an exception), every target that is needed by a requested target, can be made, has not failed itself and needs, directly or indirectly, no target that has failed is up to date with regard to the files as they are then.", "quantifier": "all makefiles (unambiguous, acyclic), all file times, any set of failing commands, all orders of events, any number of jobs", "why_tests_cant": "Which targets are abandoned depends on when each command fails relative to the others; tests try a few schedules of a few graphs.", "anchors": ["src/jomlib/targetexecutor.cpp: finishBuild (191-201), findNextTarget (203-222), onChildFinished (224-267)", "src/jomlib/dependencygraph.cpp: markParentsRecursivlyUnbuildable (85-102), findAvailableTarget (300-342)"]}
{"id": "C96", "title": "A failed or interrupted build can be resumed", "statement": "Stop a build at any moment: jom is killed, it aborts because of a failed command, or it ends. If the targets being made at that moment and the targets whose commands have failed still have the files they had before the build (or still none), then every file that looks up to date has the content its commands produce, and the next build that ends with exit code 0 leaves the right contents in all needed targets that can be made, the same ones as a build that was not interrupted.", "quantifier": "all makefiles (unambiguous, acyclic), all file times and contents, any failing commands, any moment, all orders of events, any number of jobs", "why_tests_cant": "The moment of the interruption and the set of running commands are arbitrary; tests try a few moments of a few builds.", "anchors": ["src/jomlib/targetexecutor.cpp: startProcesses (119-154), buildNextTarget (156-173), finishBuild (191-201), onChildFinished (224-267)", "src/jomlib/dependencygraph.cpp: isTargetUpToDate (103-180), findAvailableTarget (300-342)", "src/jomlib/makefile.cpp: addPreciousTarget (571-575)"]}
{"id": "C97", "title": "Rules in batch mode give the same result", "statement": "Inference rules in batch mode (.c.obj::) change how many commands are started, not what a build achieves: an exit code 0 means that every needed target that can be made is up to date, and a build of something up to date starts nothing.", "quantifier": "all makefiles with rules in batch mode (unambiguous, acyclic), all file times, any number of jobs, all orders of events", "why_tests_cant": "How targets are grouped depends on the number of jobs and on which targets are out of date at the same moment; which files are read again depends on the order of events.", "anchors": ["src/jomlib/makefile.cpp: applyInferenceRules (524-543, 588-606), applyInferenceRule (608-669)", "src/jomlib/dependencygraph.cpp: isTargetUpToDate (103-180), findAvailableTarget (300-342)", "src/jomlib/targetexecutor.cpp: findNextTarget (203-222), onChildFinished (224-267)"]}
{"id": "C98", "title": "From the text of a makefile to files that are up to date", "statement": "Call jom for a makefile: if it ends with exit code 0 then, for the targets, dependents, commands and inference rules that the text describes, every target that was asked for or is needed by one and can be made exists, is not older than anything it is made from, and has the content its commands produce; only targets that were out of date or depend on one that was have been made; calling jom again starts nothing. Cycles among dependents are found before anything is executed.", "quantifier": "all makefile texts that are accepted, all command lines without /A, all environments, files and file times, any number of jobs, all orders of events", "why_tests_cant": "Composes command line, preprocessor, parser, inference rules, graph and scheduler; a test runs one makefile with one set of files in one order of events.", "anchors": ["src/app/main.cpp: main (100-231)", "src/jomlib/parser.cpp: Parser::apply (74-158), preselectInferenceRules (727-754)", "src/jomlib/targetexecutor.cpp: apply (87-106), startProcesses (119-154)", "src/jomlib/dependencygraph.cpp: isTargetUpToDate (103-180), findAvailableTarget (300-342)", "src/jomlib/makefile.cpp: applyInferenceRules (524-543)"]}
{"id": "C99", "title": "How a makefile is saved does not matter", "statement": "A makefile means the same whether it is saved as Latin-1, as UTF-8 with byte order mark or as UTF-16 with byte order mark, and whether its lines end with LF or CR LF (also mixed): the same lines are read with the same continuations and the same line numbers, and no access leaves the line buffer.", "quantifier": "all texts (all Unicode characters for UTF-8 and UTF-16), all choices of line ends, all lengths of lines", "why_tests_cant": "Depends on how the bytes of each character and of each line end meet the ends of the line buffer and of the read pieces; a test reads some files.", "anchors": ["src/jomlib/makefilelinereader.cpp: MakefileLineReader::open (46-70)", "src/jomlib/makefilelinereader.cpp: readLine_impl_local8bit (104-157), readLine_impl_unicode (163-189)"]}
{"id": "C100", "title": "Dry runs, failures and interrupted builds of a makefile", "statement": "For the targets, dependents, commands and inference rules that the text of a makefile describes: jom /N shows the commands of exactly the needed targets that can be made and are not up to date and changes nothing; what it shows is made by the build; jom /K that ends with exit code 0 or 1 leaves everything up to date except targets that failed or need one that failed; after a build that was stopped at any moment, with unchanged files for the unfinished targets, the next build with exit code 0 leaves the right contents.", "quantifier": "all makefile texts that are accepted (unambiguous), all files, file times and contents, any failing commands, any moment of interruption, any number of jobs, all orders of events", "why_tests_cant": "Composes preprocessor, parser, inference rules, graph and scheduler with failures at arbitrary moments; a test runs one makefile with one failing command.", "anchors": ["src/jomlib/makefile.cpp, src/jomlib/parser.cpp: from text to targets", "src/jomlib/targetexecutor.cpp: apply (70-117), startProcesses (119-154), onChildFinished (224-267)", "src/jomlib/dependencygraph.cpp: isTargetUpToDate (103-180), findAvailableTarget (300-342)"]}
{"id": "C101", "title": "Targets whose commands make no file (all, install, clean)", "statement": "In a makefile with targets whose commands need not make a file, everything else works as if they were not there: jom that ends with exit code 0 or 1 leaves every needed target up to date that neither is nor needs such a target or a failed one; a target is started only if it or something it needs was out of date; the next run starts a target only if it or something it needs is such a target or failed before; a target with commands whose file never exists is made by every successful build that needs it, and so is every target with commands that depends on it directly, whatever the times of the files.", "quantifier": "all makefiles (unambiguous), all files and file times, any set of such targets, with and without /K, targets made by processes or by jom itself (cd, set, inline files), any number of jobs, all orders of events", "why_tests_cant": "The claim is about every set of such targets in every dependency graph and every order in which commands end; tests run one makefile once.", "anchors": ["src/jomlib/dependencygraph.cpp: isTargetUpToDate (103-180), findAvailableTarget (300-342)", "src/jomlib/targetexecutor.cpp: buildNextTarget (156-173), findNextTarget (203-222), onChildFinished (224-267)", "src/jomlib/commandexecutor.cpp: start, builtin commands (cd, set)"]}
{"id": "C102", "title": "What /P prints is a makefile", "statement": "The macros and inference rules printed by /P are written in the syntax of makefiles: a makefile that consists of these lines defines macros with the same values and the same inference rules (paths, extensions, batch mode, commands with their modifiers) in the same order, and no targets.", "quantifier": "all sets of macros and lists of inference rules that fit on lines of their own, all orders of the hash table, all macros known before (environment, command line) that are among the printed ones", "why_tests_cant": "a round trip through printing, the division into lines, the preprocessor, macro definition, macro expansion and the parser; unbounded numbers of macros, rules and commands, and macros that refer to each other in any order", "anchors": ["src/jomlib/macrotable.cpp:369-375", "src/jomlib/makefile.cpp:458-497", "src/app/main.cpp:187-194", "src/jomlib/parser.cpp:578-613"]}
{"id": "C103", "title": "/D tells what happens to every target", "statement": "With /D jom prints one line for every target it deals with, in the order in which it does: with a blank in front if the target is found up to date and with a star if it is not, followed by the time of its file and its name. Exit code 0 means that every needed target has a line. Mark, date and name can be read off each line.", "quantifier": "all makefiles, files, requested targets, options, numbers of jobs, answers of the file system, behaviours of commands and orders of events; all file names and dates", "why_tests_cant": "The order of the lines depends on the interleaving of the processes; targets are tested several times, and the time that is printed is a field other functions change; all reachable states of the scheduler.", "anchors": ["src/jomlib/dependencygraph.cpp:300-356", "src/jomlib/dependencygraph.cpp:103-180", "src/jomlib/targetexecutor.cpp:203-222", "src/jomlib/filetime.cpp:65-78"]}
{"id": "C104", "title": "An error names the line it is about", "statement": "When a makefile is rejected because a line is not understood, a macro invocation or definition is wrong, a directive is unknown, not expected or fails, a file cannot be included, a condition is no expression or a target has both : and :: dependents, the file name and the line number in the message are those of the line in question (of its last part if it is continued), also in included files, behind inline files and in skipped parts.", "quantifier": "all makefiles, included files, macros, conditionals, rules, commands and inline files", "why_tests_cant": "The position is asked for when the exception is thrown, in whatever state the reader is then; every place that can throw, after every sequence of reads.", "anchors": ["src/jomlib/parser.cpp:85-110", "src/jomlib/parser.cpp:392-476", "src/jomlib/parser.cpp:756-759", "src/jomlib/preprocessor.cpp:97-156", "src/jomlib/exception.cpp:42-66"]}
{"id": "C105", "title": "The number of jobs does not decide whether a build succeeds", "statement": "If the commands follow recipes, whether a command succeeds depends only on the files its target is made from, and a build ends with exit code 0, then any other build of the same targets from the same files, with any number of jobs, with or without /K and with processes ending in any order, has no failing command, is not aborted, can only end with exit code 0, executes the commands of the same targets and leaves the same contents.", "quantifier": "all makefiles, files, recipes, numbers of jobs and orders of events", "why_tests_cant": "A makefile that builds with /J 1 is built with /J 8 on another machine; a command that is started too early fails only for some interleavings, and a test sees a few of them.", "anchors": ["src/jomlib/targetexecutor.cpp:70-267", "src/jomlib/dependencygraph.cpp:276-342"]}
{"id": "C106", "title": "With /K the same targets fail, whatever the number of jobs", "statement": "If the commands follow recipes and whether a command succeeds depends only on the files its target is made from, then any two builds of the same targets from the same files with /K that have ended (without an exception), with any numbers of jobs and with processes ending in any order, have ended with the same exit code; if it is 0 or 1, they have executed the commands of the same targets, those of the same targets have failed, and every target that can be made, has not failed and needs no failed target has the same content.", "quantifier": "all makefiles, files, recipes, sets of failing commands, numbers of jobs and orders of events", "why_tests_cant": "Which targets are abandoned when a command fails depends on what is already running or queued at that moment; the list of failures of an overnight build with /J 8 /K can be trusted only if no interleaving changes it.", "anchors": ["src/jomlib/targetexecutor.cpp:70-267", "src/jomlib/dependencygraph.cpp:85-102", "src/jomlib/dependencygraph.cpp:276-342"]}
{"id": "C107", "title": "No job stays unused while a target could be made", "statement": "Whenever jom only waits for the end of a process (and has not given up because of a failure or an exception), either as many targets as the number of jobs are being made, or everything that belongs to the requested target and has not been dealt with is being made or depends on something that is being made. Hence, if jom's own work takes no time, j times the time of a build with j jobs is at most the time of all executed commands plus j-1 times the time of the commands along one chain of dependents per requested target; for one requested target that is at most 2 - 1/j times whatever is no less than both the time of the commands divided by j and the time of every chain.", "quantifier": "all acyclic dependency graphs, requested targets, numbers of jobs, durations of commands, file times, results and orders of events", "why_tests_cant": "A lost wake-up (a posted call that is not posted, a token that is not asked for) shows only as a build that is slower than it could be, for one particular order in which processes end; no test compares the duration of a build with what the graph allows.", "anchors": ["src/jomlib/targetexecutor.cpp:119-173", "src/jomlib/targetexecutor.cpp:203-267", "src/jomlib/jobclient.cpp:78-99", "src/jomlib/dependencygraph.cpp:300-342"]}
{"id": "C108", "title": "Handles of commands are closed and not passed on", "statement": "A handle that jom opens to run a command is closed at most once, and only while it is open. As long as jom runs, at most four handles are open for every running command and none for a command that has ended; the process of a command inherits its three standard handles and no handle that belongs to another command.", "quantifier": "all numbers of jobs, sequences of commands, answers of the operating system (busy pipe names, failing calls) and orders in which commands end", "why_tests_cant": "A handle that is left open has no visible effect until a long build runs out of handles or a process that inherited the end of a pipe keeps it open; tests run few commands and do not count handles.", "anchors": ["src/jomlib/jomprocess.cpp:57-85", "src/jomlib/jomprocess.cpp:285-345", "src/jomlib/jomprocess.cpp:347-409", "src/jomlib/jomprocess.cpp:423-444", "src/jomlib/commandexecutor.cpp:213-255"]}
{"id": "C109", "title": "After a failure jom waits for what is running", "statement": "If a command fails and /K is not given, jom starts no further command and ends when every command that is running has ended; it always comes to that end.", "quantifier": "all numbers of jobs, targets with any commands, orders in which commands end or fail (also while jom waits), and requests for job tokens", "why_tests_cant": "Which signal is handled first in the nested event loops depends on the order in which processes end; a process that outlives jom is seen only with several jobs and targets with several commands, and a wait that never ends only in the order of events that causes it.", "anchors": ["src/jomlib/targetexecutor.cpp:175-189", "src/jomlib/targetexecutor.cpp:224-267", "src/jomlib/jomprocess.cpp:424-459", "src/jomlib/commandexecutor.cpp:99-136"]}
{"id": "C110", "title": "More jobs do not make a build slower", "statement": "If jom's own work takes no time and every command takes as long as before, a successful build with more jobs takes no longer than one with fewer jobs.", "quantifier": "all acyclic dependency graphs, requested targets, numbers of jobs, durations of commands and orders of events", "why_tests_cant": "Whether a build gets slower depends on the durations of its commands and on the order in which targets become available; a handful of measured builds says nothing about all graphs and durations.", "anchors": ["src/jomlib/targetexecutor.cpp:119-173", "src/jomlib/targetexecutor.cpp:203-222", "src/jomlib/dependencygraph.cpp:300-342"]}
{"id": "C111", "title": "/U shows the inline files", "statement": "With /U jom writes for every inline file of a target that it is going to build, in their order, the name under which the file is created and exactly its content to the standard output; names and contents can be read from that output; the files, the command lines and errors are the same as without /U.", "quantifier": "all targets with any number of commands and inline files, names, contents, file systems, sets of writable files; buffered and unbuffered output", "why_tests_cant": "The contents and names are arbitrary texts and so are the existing files, from which the names of unnamed files depend; tests show the output for a few files and cannot tell whether two different sets of files are shown alike.", "anchors": ["src/jomlib/commandexecutor.cpp:257-312", "src/jomlib/commandexecutor.cpp:323-335", "src/jomlib/options.cpp:335-336"]}
{"id": "C112", "title": "A job token that cannot be acquired", "statement": "If acquiring a job token from the job server fails, jom starts no further target, lets the running commands end, then ends the build with an error, and has given back exactly the tokens it took.", "quantifier": "all dependency graphs, numbers of jobs, file times and schedules, with the failure at any moment at which a token is requested", "why_tests_cant": "The failure comes from the operating system at any point of any interleaving; a test that waits for an end that never comes cannot tell a hang from a slow build.", "anchors": ["src/jomlib/jobclientacquirehelper.cpp:35-43", "src/jomlib/jobclient.cpp:79-108", "src/jomlib/targetexecutor.cpp:119-136", "src/jomlib/targetexecutor.cpp:181-189", "src/jomlib/targetexecutor.cpp:238-241"]}
{"id": "C113", "title": "The shared job limit after nested joms have failed", "statement": "In a tree of joms sharing one job server started with -j N the number of running processes that are not joms themselves never exceeds N, also when nested joms have failed and the outer jom goes on with /K.", "quantifier": "all trees of nested joms, all schedules, any failures and exceptions, all N >= 1", "why_tests_cant": "The limit is exceeded only if a command fails between the request of a token and its arrival, in one of several processes; no test controls that interleaving.", "anchors": ["src/jomlib/targetexecutor.cpp:181-189", "src/jomlib/targetexecutor.cpp:224-267", "src/jomlib/jobserver.cpp:47-66", "src/jomlib/jobclient.cpp:79-108"]}
{"id": "C114", "title": "Nested joms do not deadlock after failures", "statement": "In a tree of joms sharing one job server, as long as the outermost jom has not ended, something can happen (a command ends, a token is taken, a queued call is handled, a failed jom whose commands have ended ends), also if commands have failed or exceptions have ended nested joms.", "quantifier": "all trees of nested joms, all schedules, any failures and exceptions, all N >= 1", "why_tests_cant": "The deadlock needs failures in several nested processes at particular moments between requests and arrivals of tokens; tests neither control these nor can they tell a deadlock from a slow build.", "anchors": ["src/jomlib/targetexecutor.cpp:119-136", "src/jomlib/targetexecutor.cpp:156-189", "src/jomlib/targetexecutor.cpp:224-267", "src/jomlib/jobserver.cpp:47-66", "src/jomlib/jobclient.cpp:79-108"]}
{"id": "C115", "title": "A job token that cannot be given back costs one job", "statement": "If the job server does not take back a token, jom warns and carries on: nothing else about the build changes, never more than N commands run at once in the whole tree of joms, and the build goes on until it has ended.", "quantifier": "all trees of nested joms, all schedules, any number of failed releases at any moments, all N >= 1", "why_tests_cant": "Failures of the operating system's semaphore cannot be provoked at chosen moments, and a test cannot tell a build that waits for ever from a slow one.", "anchors": ["src/jomlib/jobclient.cpp:100-107", "src/jomlib/targetexecutor.cpp:119-136", "src/jomlib/targetexecutor.cpp:181-189", "src/jomlib/targetexecutor.cpp:238-241"]}
{"id": "C116", "title": ".NOTPARALLEL in the outermost makefile and nested joms", "statement": "With -j N and .NOTPARALLEL in the outermost makefile, the targets of this makefile are made one at a time, while nested joms still share the N jobs: as long as no build was aborted never more than N commands that are not joms run in the whole tree, and as long as the outermost jom has not ended something can happen.", "quantifier": "all makefiles with .NOTPARALLEL, all N >= 1, all trees of nested joms, all schedules", "why_tests_cant": "The job server is started for N jobs before the outermost jom is restricted to one executor; whether the surplus tokens break a limit or lead to a deadlock depends on all schedules of all processes.", "anchors": ["src/app/main.cpp:116-149", "src/app/main.cpp:196-213", "src/jomlib/parser.cpp:440-450", "src/jomlib/jobserver.cpp:46-66", "src/jomlib/targetexecutor.cpp:48-53"]}
{"id": "C117", "title": "Nested joms with a -j of their own", "statement": "When nested joms are started with a -j that differs from the inherited one and so create job servers of their own, every job server keeps its own limit (of the joms that share a server for n jobs, at most n commands run at once that are not joms sharing it, as long as none of them was aborted), and as long as the outermost jom has not ended and no build was aborted, some jom can handle an event.", "quantifier": "all outermost -j N >= 1, all numbers and nestings of job servers, all numbers of jobs >= 1, all schedules", "why_tests_cant": "A deadlock would need executors of one tree waiting for joms of another; this concerns all nestings of trees and all interleavings of their processes.", "anchors": ["src/app/main.cpp:116-149", "src/jomlib/jobserver.cpp:46-63", "src/jomlib/jobclient.cpp:40-119", "src/jomlib/targetexecutor.cpp:44-75", "src/jomlib/options.cpp:289-310"]}

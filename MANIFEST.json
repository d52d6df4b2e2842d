{
 "claims": [
  {
   "property": "C01",
   "status": "proved",
   "theorems": [
    "Jom.Props.C01_expansion_terminates",
    "Jom.Props.C01_expandMacros_total"
   ],
   "note": ""
  },
  {
   "property": "C02",
   "status": "proved",
   "theorems": [
    "Jom.Props.C02_expansion_meaning",
    "Jom.Props.C02_meaning_unique",
    "Jom.Props.C02_compositional",
    "Jom.Props.C02_forms"
   ],
   "note": ""
  },
  {
   "property": "C03",
   "status": "proved",
   "theorems": [
    "Jom.Props.C03_cycle_detection_exact",
    "Jom.Props.C03_reported_cycle_is_real"
   ],
   "note": ""
  },
  {
   "property": "C04",
   "status": "proved",
   "theorems": [
    "Jom.Props.C04_expansion_frame",
    "Jom.Props.C04_success_frame"
   ],
   "note": ""
  },
  {
   "property": "C05",
   "status": "proved",
   "theorems": [
    "Jom.Props.C05_command_line_wins",
    "Jom.Props.C05_implicit_wins",
    "Jom.Props.C05_plain_value",
    "Jom.Props.C05_undef_removes"
   ],
   "note": ""
  },
  {
   "property": "C06",
   "status": "proved",
   "theorems": [
    "Jom.Props.C06_env_with_E_wins",
    "Jom.Props.C06_env_defines",
    "Jom.Props.C06_last_assignment_wins",
    "Jom.Props.C06_env_without_E_not_read_only",
    "Jom.Props.C06_command_line_beats_env"
   ],
   "note": ""
  },
  {
   "property": "C07",
   "status": "proved",
   "theorems": [
    "Jom.Props.C07_incremental_redefinition",
    "Jom.Props.C07_append",
    "Jom.Props.C07_assignment_succeeds",
    "Jom.Props.C07_escaped_self_reference_is_rewritten"
   ],
   "note": "the replacement is textual: C07_escaped_self_reference_is_rewritten shows that it also rewrites $$(A)"
  },
  {
   "property": "C08",
   "status": "partial",
   "theorems": [
    "Jom.Props.C08_substitution_partial",
    "Jom.Props.C08_result_unique",
    "Jom.Props.C08_caret_in_before_breaks",
    "Jom.Props.C08_caret_quotes_refuted",
    "Jom.Props.C08_empty_before"
   ],
   "note": "the claim is false for a caret in front of the =, for ^^ and for ^= (witnesses); proved otherwise, where every caret behind the = disappears"
  },
  {
   "property": "C09",
   "status": "partial",
   "theorems": [
    "Jom.Props.C09_refuted_env_never_updated",
    "Jom.Props.C09_refuted_witness"
   ],
   "note": "the documented behaviour is refuted: the environment is never updated"
  },
  {
   "property": "C10",
   "status": "proved",
   "theorems": [
    "Jom.Props.C10_reads_all_lines",
    "Jom.Props.C10_every_file",
    "Jom.Props.C10_delivered_unique"
   ],
   "note": "on the text after text-mode newline conversion, for which see C99"
  },
  {
   "property": "C100",
   "status": "partial",
   "theorems": [
    "Jom.Props.C100_dry_run_partial",
    "Jom.Props.C100_dry_run_tells_partial",
    "Jom.Props.C100_keep_going_partial",
    "Jom.Props.C100_resume_partial"
   ],
   "note": "Compositions of C93, C95 and C96 with C76; the restrictions of these claims remain: unambiguous makefile (C69), no target name that begins with .\\\\, no rules in batch mode, /K in C100_resume_partial only as long as no target that was requested later needs one that has failed"
  },
  {
   "property": "C101",
   "status": "partial",
   "theorems": [
    "Jom.Props.C101_up_to_date_partial",
    "Jom.Props.C101_only_what_depends_on_stale_partial",
    "Jom.Props.C101_next_build_partial",
    "Jom.Props.C101_makefile_partial",
    "Jom.Props.C101_makefile_next_partial",
    "Jom.Props.C101_always_made_partial",
    "Jom.Props.C101_parent_made_partial",
    "Jom.Props.C101_parent_future_refuted"
   ],
   "note": "The restrictions of C69 remain: unambiguous makefile, no file times in the future, no rules in batch mode. C101_always_made_partial and C101_parent_made_partial: restrictions of C73 (sources of rules declared, no dependents found through the directory of the makefile). That targets which depend directly on a target without file are always made again is false if their file has a time in the future (C101_parent_future_refuted)"
  },
  {
   "property": "C102",
   "status": "partial",
   "theorems": [
    "Jom.Props.C102_read_back_partial",
    "Jom.Props.C102_root_refuted",
    "Jom.Props.C102_modes_refuted",
    "Jom.Props.C102_targets_refuted"
   ],
   "note": "for macros and rules that fit on lines of their own: values without # and without blanks at the ends, paths without braces, $ and separators at the end, commands without inline files that do not end in a backslash or caret, with the modes given by the options. False in general: a path that consists of a separator is printed as {} (C102_root_refuted); the effect of .SILENT and .IGNORE and the contents of inline files are not printed (C102_modes_refuted); what is printed about targets is no makefile and lacks the modifiers of commands (C102_targets_refuted)"
  },
  {
   "property": "C103",
   "status": "partial",
   "theorems": [
    "Jom.Props.C103_lines",
    "Jom.Props.C103_targets",
    "Jom.Props.C103_runs",
    "Jom.Props.C103_all_shown",
    "Jom.Props.C103_time_partial",
    "Jom.Props.C103_text",
    "Jom.Props.C103_all_refuted",
    "Jom.Props.C103_time_refuted"
   ],
   "note": "lines, order, marks (without /A), completeness and the text are proved for all runs. False: with /A a target whose commands are started can have a blank (C103_all_refuted); an out-of-date target is shown with the invalid time although its file exists (C103_time_refuted). C103_time_partial: what is shown for the others is right, for unambiguous makefiles as in C69, with /K for targets that neither have failed nor need one that has"
  },
  {
   "property": "C104",
   "status": "partial",
   "theorems": [
    "Jom.Props.C104_same",
    "Jom.Props.C104_last_read",
    "Jom.Props.C104_position",
    "Jom.Props.C104_same_pp",
    "Jom.Props.C104_preprocessor",
    "Jom.Props.C104_directives",
    "Jom.Props.C104_mixed_refuted"
   ],
   "note": "proved for lines that are not understood and wrong macro invocations noticed by the parser, and for all errors of the preprocessor except a missing !ENDIF, which has no line: C89 (unless the makefile ends within the line, or lines of inline files are read from Unicode makefiles: C88_inline_lost). False for : and :: dependents: the message names the line behind the commands of the block (C104_mixed_refuted)"
  },
  {
   "property": "C105",
   "status": "partial",
   "theorems": [
    "Jom.Props.C105_success_partial",
    "Jom.Props.C105_same_targets_partial",
    "Jom.Props.C105_same_build_partial",
    "Jom.Props.C105_exit_partial",
    "Jom.Props.C105_text_partial",
    "Jom.Props.C69_two_sources_jobs"
   ],
   "note": "with the restrictions of C69 and C74 (unambiguous makefile, no /A, what is written is newer); a target without commands that has a file must not need other targets; runs without exceptions. False for targets that can be inferred from two existing files: the commands of such a target are executed with /J 2 but not with /J 1 (C69_two_sources_leave_stale, C69_two_sources_jobs)"
  },
  {
   "property": "C106",
   "status": "partial",
   "theorems": [
    "Jom.Props.C106_exit_partial",
    "Jom.Props.C106_same_outcome_partial",
    "Jom.Props.C106_one_target_partial",
    "Jom.Props.C106_text_partial",
    "Jom.Props.C106_retried_refuted",
    "Jom.Props.C69_two_sources_jobs"
   ],
   "note": "with the restrictions of C105 (unambiguous makefile, no /A, what is written is newer, a target without commands that has a file must not need other targets, no exceptions); no target that has failed is needed by a target requested later (NotRetried, always so if one target is requested; necessary, C106_retried_refuted). False for targets that can be inferred from two existing files (C69_two_sources_jobs)"
  },
  {
   "property": "C107",
   "status": "proved",
   "theorems": [
    "Jom.Props.C107_no_idle_job",
    "Jom.Props.C107_time",
    "Jom.Props.C107_one_job",
    "Jom.Props.C107_factor_two",
    "Jom.Props.C107_text_partial",
    "Jom.Props.C107_text_time_partial",
    "Jom.Props.C107_tree"
   ],
   "note": "the statement about one jom is for a jom that owns its job server; C107_tree is the first half for a tree of joms that share one (N processes, or in every jom as many targets as executors, or all wait for one that is being made), as long as no jom of the tree has given up because of a failure. The dependents of the requested targets are acyclic (C24); C107_text_partial and C107_text_time_partial derive that from the text of a makefile with the restrictions of C98 (unambiguous makefile, no /A). Time passes only while processes run and jom has nothing to do"
  },
  {
   "property": "C108",
   "status": "partial",
   "theorems": [
    "Jom.Props.C108_closed_once",
    "Jom.Props.C108_open",
    "Jom.Props.C108_partial",
    "Jom.Props.C108_leak_refuted",
    "Jom.Props.C108_inherit_refuted"
   ],
   "note": "false for simple commands that cannot be started directly and are then run by the shell: each of them leaves six handles open for ever (C108_leak_refuted) and passes three of them on to later processes (C108_inherit_refuted); C108_open gives the number of open handles in general; proved otherwise. Handle values are not reused in the model; the end of jom (destructors) is not part of it"
  },
  {
   "property": "C109",
   "status": "partial",
   "theorems": [
    "Jom.Props.C109_first_partial",
    "Jom.Props.C109_single_partial",
    "Jom.Props.C109_takes_over_partial",
    "Jom.Props.C109_noticed",
    "Jom.Props.C109_ends",
    "Jom.Props.C109_refuted"
   ],
   "note": "false for targets with several commands: the next command of a target that is being built is started while jom waits, and jom ends while it is running (C109_refuted); proved: what was running at the first failure is waited for (C109_first_partial), everything holds if no target has more than one process (C109_single_partial), what is started after a failure takes the place of a process that has just ended (C109_takes_over_partial), and jom always ends (C109_ends)"
  },
  {
   "property": "C11",
   "status": "proved",
   "theorems": [
    "Jom.Props.C11_readers_agree",
    "Jom.Props.C11_same_line",
    "Jom.Props.C11_line_meaning_unique"
   ],
   "note": ""
  },
  {
   "property": "C110",
   "status": "partial",
   "theorems": [
    "Jom.Props.C110_lower_bounds",
    "Jom.Props.C110_bound_partial",
    "Jom.Props.C110_one_job_partial",
    "Jom.Props.C110_text_partial",
    "Jom.Props.C110_refuted"
   ],
   "note": "false: a makefile with ten targets takes 13 units of time with three jobs and 16 with four (C110_refuted); proved: no number of jobs is slower than one job (C110_one_job_partial), and from m to n jobs the time grows at most by the factor (m+n-1)/n, less than two for n >= m (C110_bound_partial), also for what the text of a makefile describes, with the restrictions of C98 (C110_text_partial)"
  },
  {
   "property": "C111",
   "status": "partial",
   "theorems": [
    "Jom.Props.C111_same",
    "Jom.Props.C111_shown_partial",
    "Jom.Props.C111_error_partial",
    "Jom.Props.C111_readable_partial",
    "Jom.Props.C111_refuted",
    "Jom.Props.C111_null_refuted"
   ],
   "note": "false for contents with the line that marks the end of a file, which look like several files (C111_refuted), and for null characters, at which unbuffered output ends (C111_null_refuted); proved otherwise, also for the files created before an error; that /U changes nothing else is proved without restrictions (C111_same)"
  },
  {
   "property": "C112",
   "status": "partial",
   "theorems": [
    "Jom.Props.C112_after_partial",
    "Jom.Props.C112_refuted",
    "Jom.Props.C112_token_refuted"
   ],
   "note": "false in every execution with a failed acquisition: jom never ends (C112_refuted) and gives back one token more than it took (C112_token_refuted); proved: no further target is started, all running commands can end and are recorded, the limit of C32 holds"
  },
  {
   "property": "C113",
   "status": "partial",
   "theorems": [
    "Jom.Props.C113_limit_partial",
    "Jom.Props.C113_refuted"
   ],
   "note": "false: a jom that fails while it asks for a token gives that token back twice, so three processes run with -j2 (C113_refuted); proved: every jom that has ended after a failure or an exception raises the limit by at most one, even if the commands it left running are counted"
  },
  {
   "property": "C114",
   "status": "partial",
   "theorems": [
    "Jom.Props.C114_progress_partial",
    "Jom.Props.C114_refuted",
    "Jom.Props.C114_exception_refuted"
   ],
   "note": "false: with -j2 and two nested joms in which a command fails the tree can be stuck (C114_refuted), also after two exceptions (C114_exception_refuted); proved whenever the failed joms that have not ended and the tokens that ended joms kept are together fewer than N"
  },
  {
   "property": "C115",
   "status": "partial",
   "theorems": [
    "Jom.Props.C115_as_if",
    "Jom.Props.C115_limit",
    "Jom.Props.C115_limit_failed",
    "Jom.Props.C115_progress_partial",
    "Jom.Props.C115_failures_partial",
    "Jom.Props.C115_refuted"
   ],
   "note": "C115_as_if and C115_limit hold without restriction on the number of failed releases (the limit: that of C33 without aborted builds, that of C113 otherwise); progress is proved while fewer than N releases have failed and no build was aborted, with failed joms under the condition of C114; after N failed releases a build can wait for ever (C115_refuted)"
  },
  {
   "property": "C116",
   "status": "proved",
   "theorems": [
    "Jom.Props.C116_limits",
    "Jom.Props.C116_progress",
    "Jom.Props.C116_whole_build_refuted"
   ],
   "note": "the limits and progress hold; C116_whole_build_refuted shows that .NOTPARALLEL does not hold for nested joms (N commands run at once)"
  },
  {
   "property": "C117",
   "status": "proved",
   "theorems": [
    "Jom.Props.C117_limits",
    "Jom.Props.C117_progress",
    "Jom.Props.C117_progress_each",
    "Jom.Props.C117_finish",
    "Jom.Props.C117_outer_limit_refuted"
   ],
   "note": "limits per job server and progress of all; C117_outer_limit_refuted shows that the -j of the outermost jom does not bound the whole build then; that a jom with such a nested jom also starts further commands meanwhile is only shown by an example"
  },
  {
   "property": "C12",
   "status": "partial",
   "theorems": [
    "Jom.Props.C12_comment_removed",
    "Jom.Props.C12_no_comment",
    "Jom.Props.C12_cases",
    "Jom.Props.C12_first_hash_partial",
    "Jom.Props.C12_refuted_hash_after_escaped_hash"
   ],
   "note": "the claim is false for a # directly behind an escaped #; exact behaviour proved for all lines"
  },
  {
   "property": "C13",
   "status": "proved",
   "theorems": [
    "Jom.Props.C13_separator_first",
    "Jom.Props.C13_comment_first",
    "Jom.Props.C13_neither",
    "Jom.Props.C13_cases",
    "Jom.Props.C13_escape_kept_without_comment"
   ],
   "note": ""
  },
  {
   "property": "C14",
   "status": "proved",
   "theorems": [
    "Jom.Props.C14_split_names",
    "Jom.Props.C14_every_line"
   ],
   "note": ""
  },
  {
   "property": "C15",
   "status": "proved",
   "theorems": [
    "Jom.Props.C15_wildcard_exact",
    "Jom.Props.C15_expansion_in_place",
    "Jom.Props.C15_no_wildcards"
   ],
   "note": "the directory search itself is a parameter"
  },
  {
   "property": "C16",
   "status": "partial",
   "theorems": [
    "Jom.Props.C16_modifiers_partial",
    "Jom.Props.C16_every_line",
    "Jom.Props.C16_exit_codes",
    "Jom.Props.C16_limit_overflow",
    "Jom.Props.C16_refuted_blank_between"
   ],
   "note": "the claim is false for blanks between modifiers; proved otherwise"
  },
  {
   "property": "C17",
   "status": "partial",
   "theorems": [
    "Jom.Props.C17_branches_partial",
    "Jom.Props.C17_directive",
    "Jom.Props.C17_condition",
    "Jom.Props.C17_stable",
    "Jom.Props.C17_elseif_paren_refuted",
    "Jom.Props.C17_second_else_refuted",
    "Jom.Props.C17_skipped_expanded_refuted"
   ],
   "note": "proved for all trees of conditionals and includes whose skipped lines can be macro-expanded and whose alternatives do not change when expanded again; false otherwise (witnesses)"
  },
  {
   "property": "C18",
   "status": "partial",
   "theorems": [
    "Jom.Props.C18_balanced_partial",
    "Jom.Props.C18_fixed",
    "Jom.Props.C18_refuted"
   ],
   "note": "proved for every makefile up to one exception (an unfinished line before a skipped part at the end of the input), without exception if the role of each line is fixed; the exception is a real counterexample"
  },
  {
   "property": "C19",
   "status": "partial",
   "theorems": [
    "Jom.Props.C19_terminates_partial",
    "Jom.Props.C19_lookup",
    "Jom.Props.C19_cycle",
    "Jom.Props.C17_branches_partial",
    "Jom.Props.C19_refuted"
   ],
   "note": "termination proved for every finite set of files that do not end within a directive; false otherwise: !INCLUDE of itself with a trailing backslash loops forever"
  },
  {
   "property": "C20",
   "status": "proved",
   "theorems": [
    "Jom.Props.C20_grammar",
    "Jom.Props.C20_value",
    "Jom.Props.C20_unique",
    "Jom.Props.C20_error",
    "Jom.Props.C20_bounds",
    "Jom.Props.C20_text"
   ],
   "note": "the table-driven parser against the grammar as an inductive relation, for all token sequences; the parse is unique in its value"
  },
  {
   "property": "C21",
   "status": "partial",
   "theorems": [
    "Jom.Props.C21_undefined_partial",
    "Jom.Props.C21_division",
    "Jom.Props.C21_division_direct",
    "Jom.Props.C21_refuted",
    "Jom.Props.C21_overflow_refuted"
   ],
   "note": "false for the remainder modulo 0 and for overflow (witnesses: undefined behaviour); division by zero is reported, and nothing but the listed operations is undefined"
  },
  {
   "property": "C22",
   "status": "partial",
   "theorems": [
    "Jom.Props.C22_tests_partial",
    "Jom.Props.C22_value_partial",
    "Jom.Props.C22_refuted",
    "Jom.Props.C22_paren_refuted",
    "Jom.Props.C22_leak_refuted"
   ],
   "note": "false for EXIST followed by a closing parenthesis (witness: EXIST(a) && EXIST(b)); proved for all expressions whose pieces end where they seem to end and in which no parenthesis is closed after an EXIST"
  },
  {
   "property": "C23",
   "status": "proved",
   "theorems": [
    "Jom.Props.C23_accumulate"
   ],
   "note": "blocks after the text has been split (C14, C15); dependents with macros that are expanded as they should (C51)"
  },
  {
   "property": "C24",
   "status": "proved",
   "theorems": [
    "Jom.Props.C24_cycle_check_exact"
   ],
   "note": ""
  },
  {
   "property": "C25",
   "status": "partial",
   "theorems": [
    "Jom.Props.C25_acyclic_graph_partial",
    "Jom.Props.C25_refuted_directory_lookup"
   ],
   "note": "The full claim is false: dependents that are found only with the directory of the makefile in front are not seen by the cycle check; proved without such dependents."
  },
  {
   "property": "C26",
   "status": "partial",
   "theorems": [
    "Jom.Props.C26_order_partial",
    "Jom.Props.C26_edge_partial",
    "Jom.Props.C26_only_partial",
    "Jom.Props.C26_file_refuted",
    "Jom.Props.C26_hash_order_refuted",
    "Jom.Props.C26_twice_refuted",
    "Jom.Props.C26_macro_refuted"
   ],
   "note": "the claim is false: a dependent that is not a target makes jom drop sync points depending on the order of a hash table, two .SYNC in a row are no barrier; proved, in all runs of the scheduler, if all dependents are targets and no group in between is empty"
  },
  {
   "property": "C27",
   "status": "partial",
   "theorems": [
    "Jom.Props.C27_first_suffix",
    "Jom.Props.C27_none",
    "Jom.Props.C27_latest_partial",
    "Jom.Props.C27_latest_refuted"
   ],
   "note": "the choice by .SUFFIXES is proved for all lists; \"the latest definition\" is proved if the matching rules spell the target extension alike and false otherwise (witness: .c.obj, .c.OBJ)"
  },
  {
   "property": "C28",
   "status": "proved",
   "theorems": [
    "Jom.Props.C28_partition"
   ],
   "note": "group size is the exact quotient rounded (the code divides floats)"
  },
  {
   "property": "C29",
   "status": "proved",
   "theorems": [
    "Jom.Props.C29_graph_exact"
   ],
   "note": ""
  },
  {
   "property": "C30",
   "status": "proved",
   "theorems": [
    "Jom.Props.C30_dependents_first"
   ],
   "note": "all schedules, all graphs (acyclic if /K)"
  },
  {
   "property": "C31",
   "status": "proved",
   "theorems": [
    "Jom.Props.C31_started_once"
   ],
   "note": ""
  },
  {
   "property": "C32",
   "status": "proved",
   "theorems": [
    "Jom.Props.C32_job_limit"
   ],
   "note": "also: no undefined behaviour in the scheduler"
  },
  {
   "property": "C33",
   "status": "proved",
   "theorems": [
    "Jom.Props.C33_shared_limit"
   ],
   "note": "all trees of joms, all schedules without abort"
  },
  {
   "property": "C34",
   "status": "partial",
   "theorems": [
    "Jom.Props.C34_tokens_returned_partial",
    "Jom.Props.C34_tokens_held",
    "Jom.Props.C34_abort_returns_too_much",
    "Jom.Props.C34_exception_leaks"
   ],
   "note": "false after an abort (a pending token request is released twice) and after an exception (token leaked); proved for every end without abort; after an abort at most one token too many"
  },
  {
   "property": "C35",
   "status": "proved",
   "theorems": [
    "Jom.Props.C35_failure_stops_build"
   ],
   "note": "targets, not commands: C109 for commands of the same target; exit code 2 unless an exception ended the build before"
  },
  {
   "property": "C36",
   "status": "partial",
   "theorems": [
    "Jom.Props.C36_keep_going_partial",
    "Jom.Props.C36_across_partial",
    "Jom.Props.C36_across_refuted"
   ],
   "note": "proved for acyclic graphs and for everything that is done for one requested target, so completely if one target is requested. Across several requested targets the statement is false: what is needed by a later one is looked at anew, and a target whose commands have failed counts as up to date there if they have left a new file (C36_across_refuted)"
  },
  {
   "property": "C37",
   "status": "proved",
   "theorems": [
    "Jom.Props.C37_exit_zero"
   ],
   "note": "acyclic graphs"
  },
  {
   "property": "C38",
   "status": "proved",
   "theorems": [
    "Jom.Props.C38_progress"
   ],
   "note": ""
  },
  {
   "property": "C39",
   "status": "partial",
   "theorems": [
    "Jom.Props.C39_direct_output_partial",
    "Jom.Props.C39_two_unbuffered"
   ],
   "note": "at least one: proved; at most one: proved for -j1, -j2, false for three or more jobs"
  },
  {
   "property": "C40",
   "status": "proved",
   "theorems": [
    "Jom.Props.C40_flush",
    "Jom.Props.C40_unique",
    "Jom.Props.C40_complete",
    "Jom.Props.C40_order"
   ],
   "note": ""
  },
  {
   "property": "C41",
   "status": "partial",
   "theorems": [
    "Jom.Props.C41_up_to_date_partial",
    "Jom.Props.C41_no_file",
    "Jom.Props.C41_nothing_to_do",
    "Jom.Props.C41_future_time_refuted"
   ],
   "note": "false if the time of the target file lies in the future (witness C41_future_time_refuted); proved otherwise, for one call and for a whole makefile"
  },
  {
   "property": "C42",
   "status": "partial",
   "theorems": [
    "Jom.Props.C42_order_partial",
    "Jom.Props.C42_alive",
    "Jom.Props.C42_259_refuted",
    "Jom.Props.C42_empty_refuted"
   ],
   "note": "false for a command that ends with exit code 259 (witness: jom takes it for still running and hangs) and for a target whose only command has `!` and which has no dependents (index out of range); proved otherwise"
  },
  {
   "property": "C43",
   "status": "proved",
   "theorems": [
    "Jom.Props.C43_dry_run",
    "Jom.Props.C43_inline_files"
   ],
   "note": "C43_inline_files: inline files are written nevertheless"
  },
  {
   "property": "C44",
   "status": "partial",
   "theorems": [
    "Jom.Props.C44_created",
    "Jom.Props.C44_unnamed",
    "Jom.Props.C44_line_partial",
    "Jom.Props.C44_removed_partial",
    "Jom.Props.C44_round",
    "Jom.Props.C44_first_refuted",
    "Jom.Props.C44_late_refuted",
    "Jom.Props.C44_shared_refuted"
   ],
   "note": "names, contents and KEEP are proved; false: the first `<<` of a line that begins with it is not replaced, files are removed only when the executor starts its next target, and that removes a file of the same name in use by another executor (witnesses)"
  },
  {
   "property": "C45",
   "status": "partial",
   "theorems": [
    "Jom.Props.C45_set",
    "Jom.Props.C45_shared",
    "Jom.Props.C45_quoted_refuted",
    "Jom.Props.C45_percent_refuted"
   ],
   "note": "proved for the assignments jom understands; false for quoted assignments and for %X% (witnesses)"
  },
  {
   "property": "C46",
   "status": "proved",
   "theorems": [
    "Jom.Props.C46_block",
    "Jom.Props.C46_completed"
   ],
   "note": ""
  },
  {
   "property": "C47",
   "status": "partial",
   "theorems": [
    "Jom.Props.C47_partial",
    "Jom.Props.C47_jobs_refuted",
    "Jom.Props.C47_sign_refuted",
    "Jom.Props.C47_debug_refuted",
    "Jom.Props.C47_long_refuted"
   ],
   "note": "false for repeated /J, signed numbers, flags that spell DEBUG and long options without a letter (witnesses); proved otherwise"
  },
  {
   "property": "C48",
   "status": "proved",
   "theorems": [
    "Jom.Props.C48_jobs",
    "Jom.Props.C48_rejected"
   ],
   "note": ""
  },
  {
   "property": "C49",
   "status": "partial",
   "theorems": [
    "Jom.Props.C49_split_undoes_quoting_partial",
    "Jom.Props.C49_refuted_corner_cases"
   ],
   "note": "false for empty arguments, arguments made of quotes only and blanks at the ends of a quoted argument; proved otherwise"
  },
  {
   "property": "C50",
   "status": "partial",
   "theorems": [
    "Jom.Props.C50_answer_from_history",
    "Jom.Props.C50_fresh_after_rebuild_partial",
    "Jom.Props.C50_missing_is_fresh",
    "Jom.Props.C50_other_spelling_stale"
   ],
   "note": "false if the rebuilt file is asked for under another spelling (witness)"
  },
  {
   "property": "C51",
   "status": "partial",
   "theorems": [
    "Jom.Props.C51_partial",
    "Jom.Props.C51_dependents_partial",
    "Jom.Props.C51_forbidden",
    "Jom.Props.C51_parts_partial",
    "Jom.Props.C51_no_dir",
    "Jom.Props.C51_paren_refuted",
    "Jom.Props.C51_stray_refuted",
    "Jom.Props.C51_adjacent_refuted",
    "Jom.Props.C51_caret_refuted",
    "Jom.Props.C51_quotes_refuted",
    "Jom.Props.C51_lt_refuted",
    "Jom.Props.C51_base_refuted",
    "Jom.Props.C51_stem_refuted",
    "Jom.Props.C51_loop_refuted"
   ],
   "note": "proved from the text of the makefile for every sequence of pieces under the conditions of Fine; each condition excludes a real error (witnesses), e.g. `$(**) x` loses the blank behind the parenthesis"
  },
  {
   "property": "C52",
   "status": "proved",
   "theorems": [
    "Jom.Props.C52_top",
    "Jom.Props.C52_sub",
    "Jom.Props.C52_makeflags",
    "Jom.Props.C52_twice_refuted"
   ],
   "note": "C52_twice_refuted: a parent called with -j4 -j8 makes its children start their own server, a consequence of C47_jobs_refuted"
  },
  {
   "property": "C53",
   "status": "proved",
   "theorems": [
    "Jom.Props.C53_tree_progress"
   ],
   "note": ""
  },
  {
   "property": "C54",
   "status": "partial",
   "theorems": [
    "Jom.Props.C54_partial",
    "Jom.Props.C54_refuted"
   ],
   "note": "false for groups of two and more targets (witness: only the first target of a group gets commands)"
  },
  {
   "property": "C55",
   "status": "proved",
   "theorems": [
    "Jom.Props.C55_meaning",
    "Jom.Props.C55_only",
    "Jom.Props.C55_accepted",
    "Jom.Props.C55_targets",
    "Jom.Props.C55_environment"
   ],
   "note": ""
  },
  {
   "property": "C56",
   "status": "partial",
   "theorems": [
    "Jom.Props.C56_first_partial",
    "Jom.Props.C56_upper_refuted"
   ],
   "note": "proved for the name as written; false for the name in capital letters that is defined along (witness)"
  },
  {
   "property": "C57",
   "status": "partial",
   "theorems": [
    "Jom.Props.C57_partial",
    "Jom.Props.C57_refuted"
   ],
   "note": "the words of command files are appended at the end of the command line: proved if the references stand behind all other arguments, false otherwise (witness: @f -j2)"
  },
  {
   "property": "C58",
   "status": "partial",
   "theorems": [
    "Jom.Props.C58_partial",
    "Jom.Props.C58_refuted"
   ],
   "note": "false: jom closes the pipes when the process handle is signalled, data still in them is lost (witness C58_refuted); proved if the pipes are empty at that time"
  },
  {
   "property": "C59",
   "status": "partial",
   "theorems": [
    "Jom.Props.C59_cd",
    "Jom.Props.C59_dir_partial",
    "Jom.Props.C59_relative_refuted",
    "Jom.Props.C59_docs_refuted",
    "Jom.Props.C59_file_refuted"
   ],
   "note": "false for a second relative cd, which starts from the directory of jom, and for cd to a file (witnesses)"
  },
  {
   "property": "C60",
   "status": "proved",
   "theorems": [
    "Jom.Props.C60_started",
    "Jom.Props.C60_comment"
   ],
   "note": ""
  },
  {
   "property": "C61",
   "status": "partial",
   "theorems": [
    "Jom.Props.C61_each_partial",
    "Jom.Props.C61_append",
    "Jom.Props.C61_other",
    "Jom.Props.C61_once_refuted",
    "Jom.Props.C61_newer_refuted"
   ],
   "note": "false for commands without reference to the dependents and for $? (witnesses)"
  },
  {
   "property": "C62",
   "status": "proved",
   "theorems": [
    "Jom.Props.C62_items",
    "Jom.Props.C62_accepted",
    "Jom.Props.C62_accepted_text",
    "Jom.Props.C62_targets"
   ],
   "note": "both directions against the grammar Reads of Spec/Parser.lean; C62_accepted_text is for the modelled preprocessor, C62_accepted for every source of lines that stays at its end"
  },
  {
   "property": "C63",
   "status": "partial",
   "theorems": [
    "Jom.Props.C63_files_partial",
    "Jom.Props.C63_names",
    "Jom.Props.C63_unterminated_refuted"
   ],
   "note": "false for a file that is not closed: it takes the rest of the makefile"
  },
  {
   "property": "C64",
   "status": "partial",
   "theorems": [
    "Jom.Props.C64_directive",
    "Jom.Props.C64_values",
    "Jom.Props.C64_comment_refuted"
   ],
   "note": "false for comments: `#` and its words become values"
  },
  {
   "property": "C65",
   "status": "partial",
   "theorems": [
    "Jom.Props.C65_rule",
    "Jom.Props.C65_parts",
    "Jom.Props.C65_head",
    "Jom.Props.C65_clear",
    "Jom.Props.C65_blank_refuted"
   ],
   "note": "false with a blank or a comment behind the colon: an ordinary target"
  },
  {
   "property": "C66",
   "status": "partial",
   "theorems": [
    "Jom.Props.C66_separator_partial",
    "Jom.Props.C66_letter_refuted",
    "Jom.Props.C66_command_refuted"
   ],
   "note": "false for a target of one letter directly followed by the colon, and for a line whose only colon is behind the `;`"
  },
  {
   "property": "C67",
   "status": "proved",
   "theorems": [
    "Jom.Props.C67_flag",
    "Jom.Props.C67_one_at_a_time",
    "Jom.Props.C67_otherwise",
    "Jom.Props.C67_case_refuted"
   ],
   "note": "composed with the scheduler; the name is case-sensitive (C67_case_refuted)"
  },
  {
   "property": "C68",
   "status": "partial",
   "theorems": [
    "Jom.Props.C68_null_build_partial",
    "Jom.Props.C68_inferred_target_is_remade"
   ],
   "note": "false if an existing file from which a target is inferred is itself a target but not a declared dependent: made again in every run (C68_inferred_target_is_remade); proved for all other makefiles"
  },
  {
   "property": "C69",
   "status": "partial",
   "theorems": [
    "Jom.Props.C69_second_build_partial",
    "Jom.Props.C69_exit_zero_means_up_to_date_partial",
    "Jom.Props.C69_build_all_leaves_stale",
    "Jom.Props.C69_two_sources_leave_stale",
    "Jom.Props.C69_two_sources_jobs"
   ],
   "note": "false with /A and overlapping requested targets (C69_build_all_leaves_stale) and for targets that can be inferred from two existing files (C69_two_sources_leave_stale; whether they are made depends on the number of jobs, C69_two_sources_jobs); proved for runs without /A of unambiguous makefiles (a name means a target iff it denotes its file, at most one file from which a target can be inferred); targets may also be made by jom itself, without a process"
  },
  {
   "property": "C70",
   "status": "partial",
   "theorems": [
    "Jom.Props.C70_setup",
    "Jom.Props.C70_setup_sync"
   ],
   "note": "for makefiles whose dependents contain neither / (the parser replaces it) nor are enclosed in double quotes after macro expansion; with .SYNC in terms of the table that C26 describes"
  },
  {
   "property": "C71",
   "status": "partial",
   "theorems": [
    "Jom.Props.C71_missing_partial",
    "Jom.Props.C71_unmakeable_dependent"
   ],
   "note": "false if an inference rule fits the name of the dependent: it becomes a target, is dropped later because it has no commands, and the dependent target is executed although nothing can make the dependent (C71_unmakeable_dependent); proved otherwise"
  },
  {
   "property": "C72",
   "status": "proved",
   "theorems": [
    "Jom.Props.C72_started"
   ],
   "note": "dependents enclosed in double quotes after macro expansion are excluded, as said in the statement"
  },
  {
   "property": "C73",
   "status": "partial",
   "theorems": [
    "Jom.Props.C73_exit_zero_partial",
    "Jom.Props.C73_late_cycle"
   ],
   "note": "false if an inference rule closes a cycle between two requested targets: the second graph has no leaves and jom ends with 0 (C73_late_cycle); proved for makefiles in which sources of candidate rules that are targets are declared dependents and nothing is found through the directory of the makefile"
  },
  {
   "property": "C74",
   "status": "partial",
   "theorems": [
    "Jom.Props.C74_content_partial",
    "Jom.Props.C74_same_result_partial",
    "Jom.Props.C74_same_instant"
   ],
   "note": "with the restrictions of C69 (unambiguous makefile, no /A); false if a file may get the time of the newest file that was there before (C74_same_instant)"
  },
  {
   "property": "C75",
   "status": "partial",
   "theorems": [
    "Jom.Props.C75_relative",
    "Jom.Props.C75_denotes_partial",
    "Jom.Props.C75_prefix_refuted",
    "Jom.Props.C75_own_folder_refuted",
    "Jom.Props.C75_elsewhere_refuted"
   ],
   "note": "relative patterns completely; full paths unless the folder of the makefile is merely a textual prefix of the path found, where the name is cut in the middle (C75_prefix_refuted, C75_own_folder_refuted); false if jom runs in another folder than that of the makefile (C75_elsewhere_refuted)"
  },
  {
   "property": "C76",
   "status": "partial",
   "theorems": [
    "Jom.Props.C76_prepared",
    "Jom.Props.C76_started",
    "Jom.Props.C76_exit_zero_partial",
    "Jom.Props.C76_missing_partial",
    "Jom.Props.C76_quoted_refuted",
    "Jom.Props.C76_replaced_refuted"
   ],
   "note": "for makefiles in which no dependent is enclosed in double quotes after macro expansion (such dependents are never found, C76_quoted_refuted, and may cost another target its commands, C76_replaced_refuted); exit code 0 and missing dependents with the restrictions of C73 and C71"
  },
  {
   "property": "C77",
   "status": "partial",
   "theorems": [
    "Jom.Props.C77_inherited_partial",
    "Jom.Props.C77_unset",
    "Jom.Props.C77_defined_partial",
    "Jom.Props.C77_dollar_refuted",
    "Jom.Props.C77_late_refuted"
   ],
   "note": "for values without dollar signs and macros that the command line defines once; false for values with dollar signs: the commands see the expanded value, e.g. PROMPT=$P$G becomes empty (C77_dollar_refuted), and a command line macro that uses a predefined macro has another value for the commands than in the makefile (C77_late_refuted)"
  },
  {
   "property": "C78",
   "status": "partial",
   "theorems": [
    "Jom.Props.C78_correct",
    "Jom.Props.C78_incorrect",
    "Jom.Props.C78_asked",
    "Jom.Props.C78_no_makefile",
    "Jom.Props.C78_settings",
    "Jom.Props.C78_job_limit",
    "Jom.Props.C78_loaded",
    "Jom.Props.C78_exit_zero_partial"
   ],
   "note": "exit code 0 with the restrictions of C76 and C73; wrong command lines for arguments without dollar signs (an argument with a broken macro invocation gives 2); up to the event loop, whose end is the exit code of the scheduler"
  },
  {
   "property": "C79",
   "status": "partial",
   "theorems": [
    "Jom.Props.C79_partial",
    "Jom.Props.C79_refuted"
   ],
   "note": "false: the call queued by main starts the build after the graph has been shown (C79_refuted); with the option nothing happens to the targets that could not happen without it (C79_partial)"
  },
  {
   "property": "C80",
   "status": "partial",
   "theorems": [
    "Jom.Props.C80_command_line",
    "Jom.Props.C80_environment_partial",
    "Jom.Props.C80_predefined",
    "Jom.Props.C80_undefined",
    "Jom.Props.C80_environment_refuted"
   ],
   "note": "false for variables with the names of predefined macros: without /E the environment has no effect on them (C80_environment_refuted); values of variables without dollar signs; MAKEFLAGS, which jom sets itself, is C47"
  },
  {
   "property": "C81",
   "status": "proved",
   "theorems": [
    "Jom.Props.C81_flags",
    "Jom.Props.C81_no_flags"
   ],
   "note": "for groups of options that take no further argument; with C55 this determines all settings"
  },
  {
   "property": "C82",
   "status": "partial",
   "theorems": [
    "Jom.Props.C82_text",
    "Jom.Props.C82_targets",
    "Jom.Props.C82_condition",
    "Jom.Props.C82_inline_refuted"
   ],
   "note": "composition of C17, C20, C22, C62 and C23 for texts structured as in C17; false for inline files with lines that begin with ! or include, which are taken for directives (C82_inline_refuted); the scanner of expressions is assumed in its initial state (C22_leak_refuted)"
  },
  {
   "property": "C83",
   "status": "partial",
   "theorems": [
    "Jom.Props.C83_finished_once",
    "Jom.Props.C83_noticed",
    "Jom.Props.C83_still_active_refuted",
    "Jom.Props.C83_polling_refuted"
   ],
   "note": "order, number and exit codes of the signals proved for all interleavings; false: a process with exit code 259 is never reported, and timers go on after the last process was reported"
  },
  {
   "property": "C84",
   "status": "partial",
   "theorems": [
    "Jom.Props.C84_output_partial",
    "Jom.Props.C84_reading_partial",
    "Jom.Props.C84_stale_refuted"
   ],
   "note": "proved if no data of an earlier process waits in the port when a process is started; without this condition false (C84_stale_refuted)"
  },
  {
   "property": "C85",
   "status": "proved",
   "theorems": [
    "Jom.Props.C85_text",
    "Jom.Props.C85_definition",
    "Jom.Props.C85_directive"
   ],
   "note": "directives between the parts of a continued line are the matter of C17"
  },
  {
   "property": "C86",
   "status": "proved",
   "theorems": [
    "Jom.Props.C86_definition",
    "Jom.Props.C86_directive"
   ],
   "note": ""
  },
  {
   "property": "C87",
   "status": "partial",
   "theorems": [
    "Jom.Props.C87_recipe_partial",
    "Jom.Props.C87_determined"
   ],
   "note": "refinement to a script language whose executions are determined (C87_determined); missing: exit code 259 (C42), cd with an argument that begins with /d and directories relative to an earlier cd (C59), lines that begin with << (C44), texts outside the reach of C51"
  },
  {
   "property": "C88",
   "status": "partial",
   "theorems": [
    "Jom.Props.C88_encoding_partial",
    "Jom.Props.C88_lines",
    "Jom.Props.C88_inline_lost"
   ],
   "note": "holds for all reads outside inline file mode; false for inline files in Unicode makefiles (C88_inline_lost); decoding and the conversion of line ends: C99"
  },
  {
   "property": "C89",
   "status": "partial",
   "theorems": [
    "Jom.Props.C89_reader",
    "Jom.Props.C89_number_unique",
    "Jom.Props.C89_line",
    "Jom.Props.C89_directive",
    "Jom.Props.C89_message",
    "Jom.Props.C89_missing_endif"
   ],
   "note": "except when lines of inline files are read from Unicode makefiles, which get lost (C88_inline_lost); false at the end of the makefile: a missing !ENDIF is reported without file and line (C89_missing_endif); which line an error is about: C104"
  },
  {
   "property": "C90",
   "status": "proved",
   "theorems": [
    "Jom.Props.C90_rule",
    "Jom.Props.C90_applies",
    "Jom.Props.C90_batch"
   ],
   "note": ""
  },
  {
   "property": "C91",
   "status": "partial",
   "theorems": [
    "Jom.Props.C91_text",
    "Jom.Props.C91_dot",
    "Jom.Props.C91_names",
    "Jom.Props.C91_quotes_refuted",
    "Jom.Props.C91_once_refuted"
   ],
   "note": "the set of lines is exact for all graphs; false: dependencies below shared targets are repeated for every way to them, so that the dump can be exponential (C91_once_refuted), and names with double quotes are not escaped (C91_quotes_refuted)"
  },
  {
   "property": "C92",
   "status": "partial",
   "theorems": [
    "Jom.Props.C92_removed",
    "Jom.Props.C92_kept",
    "Jom.Props.C92_others",
    "Jom.Props.C92_start",
    "Jom.Props.C92_exit_refuted"
   ],
   "note": "proved for returning from main and for Ctrl-C; false for the end in the construction of a later graph: exit(2) for a missing dependent destroys no executor (C92_exit_refuted); that removing a file works is assumed"
  },
  {
   "property": "C93",
   "status": "partial",
   "theorems": [
    "Jom.Props.C93_shown",
    "Jom.Props.C93_shown_is_made",
    "Jom.Props.C93_made_depends_on_shown",
    "Jom.Props.C93_nothing_shown",
    "Jom.Props.C93_made_is_shown_refuted"
   ],
   "note": "the set of shown targets is exact; what is shown is made by every successful build; what a build makes is shown or depends on something shown; nothing shown means nothing made; for unambiguous makefiles as in C69; false: that a build makes only what is shown (C93_made_is_shown_refuted)"
  },
  {
   "property": "C94",
   "status": "partial",
   "theorems": [
    "Jom.Props.C94_only_what_depends_on_stale_partial",
    "Jom.Props.C94_all_that_is_stale_partial",
    "Jom.Props.C94_exactly_partial",
    "Jom.Props.C94_only_what_depends_on_stale_keep_going_partial",
    "Jom.Props.C94_all_that_is_stale_keep_going_partial"
   ],
   "note": "both halves for unambiguous makefiles as in C69, also after failures with /K; C94_exactly_partial: the set of targets that are made, for makefiles in which targets that have a file but cannot be made need no others; false for targets that can be inferred from two existing files (C69_two_sources_leave_stale); missing: other ambiguous makefiles"
  },
  {
   "property": "C95",
   "status": "partial",
   "theorems": [
    "Jom.Props.C95_all_but_what_failed_partial"
   ],
   "note": "for unambiguous makefiles as in C69, with any failures"
  },
  {
   "property": "C96",
   "status": "partial",
   "theorems": [
    "Jom.Props.C96_trustworthy_partial",
    "Jom.Props.C96_unambiguous",
    "Jom.Props.C96_next_build_partial",
    "Jom.Props.C96_same_result_partial",
    "Jom.Props.C96_failed_file_stays"
   ],
   "note": "for unambiguous makefiles as in C69; with /K and several requested targets only as long as no target that was requested later needs one that has failed; the hypothesis that the files of failed targets are untouched is necessary: jom does not delete the file of a target whose commands failed, and the next build takes it for up to date (C96_failed_file_stays)"
  },
  {
   "property": "C97",
   "status": "partial",
   "theorems": [
    "Jom.Props.C97_same_runs_partial",
    "Jom.Props.C97_exit_zero_partial",
    "Jom.Props.C97_null_build_partial",
    "Jom.Props.C97_stale_refuted"
   ],
   "note": "a build of something up to date does nothing: proved with the restrictions of C68; exit code 0 means up to date: false if a group has several targets, even with one job (C97_stale_refuted: what depends on the second target of a group is not remade); proved if fewer than 1.5 times as many targets as jobs have the rule, where all runs are those without batch mode"
  },
  {
   "property": "C98",
   "status": "partial",
   "theorems": [
    "Jom.Props.C98_makefile",
    "Jom.Props.C98_acyclic_partial",
    "Jom.Props.C98_up_to_date_partial",
    "Jom.Props.C98_content_partial",
    "Jom.Props.C98_rebuilt_partial",
    "Jom.Props.C98_exactly_partial",
    "Jom.Props.C98_second_build_partial",
    "Jom.Props.C98_command_line_partial"
   ],
   "note": "C76/C78 composed with C69, C74 and C94. Missing, as there: ambiguous makefiles (false without these restrictions, see C68, C69, C73, C74), commands that do not do their work, makefiles with dependents in double quotes (C76_quoted_refuted), targets called .\\...; C98_acyclic_partial: cycles through the directory of the makefile (C73_late_cycle)"
  },
  {
   "property": "C99",
   "status": "partial",
   "theorems": [
    "Jom.Props.C99_lines_partial",
    "Jom.Props.C99_saved_partial",
    "Jom.Props.C99_unix_uncut",
    "Jom.Props.C99_cut",
    "Jom.Props.C99_cut_continuation"
   ],
   "note": "Missing: 8-bit lines with CR LF whose CR is the last character that fits into the line buffer (6142, 7166, ... characters): false there, C99_cut_continuation. Lines of inline files are not covered (C88_inline_lost). A CR that is not part of a line end is excluded"
  }
 ]
}
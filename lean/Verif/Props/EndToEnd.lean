/- Property C98: from the text of a makefile to files that are up to date. -/
import Verif.Spec.EndToEnd
import Verif.Props.Main
import Verif.Props.Content
import Verif.Props.Rebuild

namespace Jom.Props

open Jom.Blocks Jom.Inference Jom.Prepare Jom.Graph Jom.Sched Jom.Make Jom.Parse Jom.Whole Relation
open Jom.Spec
open Jom.Spec.Blocks (canon Enclosed Described)
open Jom.Spec.Setup hiding Means
open Jom.Spec.Build
open Jom.Spec.Makefile (Flags)

/-- The makefile of a build: the targets of a table with the files from which candidate rules would make them. -/
def dbOf (t : Tab) (dir : Str) : Db where
  lookup := (env t dir id).lookup
  dir := dir
  target k := { name := (info t k).name, deps := (info t k).deps, hasCmds := (info t k).hasCmds, rules := (info t k).rules }

theorem info_fresh (t : Tab) (dir : Str) : info t = fun k => fresh ((dbOf t dir).target k) := by
  funext k
  have h : (info t k).fileExists = false ∧ (info t k).time = 0 := by
    unfold info
    split <;> exact ⟨rfl, rfl⟩
  simp only [dbOf, fresh, ← h.1, ← h.2]

/-- A rule has one source for a target. -/
theorem source_unique {r : Rule} {name x y : Str} (hx : Source r name x) (hy : Source r name y) : x = y := by
  obtain ⟨pre, base, ext, h1, h2, h3, h4, h5⟩ := hx
  obtain ⟨pre', base', ext', g1, g2, g3, g4, g5⟩ := hy
  have e1 : base ++ ext = base' ++ ext' := by
    rw [← fileName_eq h3 h2, ← h1, g1, fileName_eq g3 g2]
  have e2 : base = base' := (List.append_inj' e1 (by omega)).1
  subst e2
  rcases h5 with ⟨h5, rfl⟩ | ⟨h5, rfl⟩ <;> rcases g5 with ⟨g5, rfl⟩ | ⟨g5, rfl⟩ <;> first | rfl | exact absurd h5 g5 | exact absurd g5 h5

theorem dbOf_reflects {t : Tab} {F : Str → List Rule} (h : Tidy t F) (hs : Sources t) (dir : Str) :
    Reflects t.target t.candidates dir (dbOf t dir) where
  dir := rfl
  found := by
    intro n k hk
    obtain ⟨e, h1, h2⟩ := (env_lookup h dir id n k).1 hk
    have he := h.entry h1
    refine ⟨describe e.2, ?_, ?_, ?_, ?_, ?_⟩
    · rw [h.target, ← h2, he.1, ← h.target, he.2]
    all_goals simp only [dbOf, info_entry h1]
    · rfl
    · rfl
    · simp [describe]
    · intro x
      have hc := h.candidates h1 (n := e.2.name) he.1.symm
      rw [show (describe e.2).name = e.2.name from rfl, hc]
      have hsrc : ∀ r ∈ (find t.rules e.1).getD [], Source r e.2.name (inferredDependent r e.2.name) := by
        intro r hr
        exact hs (describe e.2) r he.2 (by rw [show (describe e.2).name = e.2.name from rfl, hc]; exact hr)
      simp only [List.mem_map]
      constructor
      · rintro ⟨r, hr, rfl⟩; exact ⟨r, hr, hsrc r hr⟩
      · rintro ⟨r, hr, hx⟩; exact ⟨r, hr, source_unique (hsrc r hr) hx⟩
  every := by
    intro n d hd
    obtain ⟨k, hk⟩ := h.target_entry hd
    exact ⟨k, (lookup_iff h dir id n k).2 ⟨d, hd, hk⟩⟩
  same := by
    intro n m k hk
    obtain ⟨e, h1, h2⟩ := (env_lookup h dir id n k).1 hk
    constructor
    · intro hm
      obtain ⟨e', g1, g2⟩ := (env_lookup h dir id m k).1 hm
      rw [h1] at g1
      cases g1
      rw [← g2, h2]
    · intro hm
      exact (env_lookup h dir id m k).2 ⟨e, h1, h2.trans hm.symm⟩

/-- No target is called `.\…`. -/
def NoDot (t : Tab) : Prop := ∀ n, t.target ('.' :: '\\' :: n) = none

theorem dbOf_key {t : Tab} {F : Str → List Rule} (h : Tidy t F) (hd : NoDot t) (dir : Str) (abs : Str → Str) (r : Str) (k : Nat)
    (hk : (env t dir abs).key r = some k) : (dbOf t dir).lookup r = some k := by
  have hfound : ∀ s, Graph.hashValue (t.table.makefile dir).hash s = some k → (dbOf t dir).lookup s = some k := by
    intro s hs
    have hs' := hs
    rw [show (t.table.makefile dir).hash = numbered t.table.targets 0 from rfl, hashValue_iff h.nodup] at hs'
    obtain ⟨e, h1, h2⟩ := hs'
    refine (env_lookup h dir id s k).2 ⟨e, h1, ?_⟩
    have hf := find_of_mem h.nodup (List.mem_of_getElem? h1)
    obtain ⟨q1, q2⟩ := h.keys _ _ hf
    have hsl : '/' ∉ s := by rw [← h2, q1]; exact fun hx => q2 (toLower_slash.1 hx)
    rw [canon_native hsl, h2]
    rw [← h2, q1, toLower_idem]
  simp only [env] at hk
  split at hk
  · exact hfound r hk
  · have := hfound _ hk
    obtain ⟨d, h1, _⟩ := (lookup_iff h dir id _ k).1 this
    rw [show (['.', '\\'] ++ r) = '.' :: '\\' :: r from rfl, hd r] at h1
    cases h1

section

variable {w : PP.World} {fuel : Nat} {entries : Str → Str → List Str} {fl : Flags} {active : List Str} {s : PP.St}
  {p : PSt PP.St} {order : List (Str × List Str)} {keys : List Str} {t : Tab} {ids : List Nat}
  {dir : Str} {abs : Str → Str} {cfg cfg' : Sched.Cfg} {disk : Str → Option Nat} {j : J}

/-- C98: what there is to build, as a makefile in the sense of `Spec/Make.lean`, comes from the text of the makefile (C76, C70), and the targets that
are built are the requested ones. -/
theorem C98_makefile (h : Loaded w fuel entries dir fl active s p order keys t ids) :
    Ready (tableSays (applySync p.table order)) (Candidate p.rules p.suffixes) (wanted p.table active) t.target t.candidates ∧
    Reflects t.target t.candidates dir (dbOf t dir) ∧
    (wanted p.table active).map (dbOf t dir).lookup = ids.map some := by
  obtain ⟨_, _, _, _, _, _, _, _, hp⟩ := C76_prepared h
  have hk := hp.known
  refine ⟨hp.ready, dbOf_reflects hk.tidy hk.sources dir, ?_⟩
  apply List.ext_getElem?
  intro b
  simp only [List.getElem?_map]
  cases hb : ids[b]? with
  | none =>
    have : ids.length ≤ b := List.getElem?_eq_none_iff.1 hb
    have : (wanted p.table active)[b]? = none := List.getElem?_eq_none_iff.2 (by have := hk.length; omega)
    simp [this]
  | some i =>
    obtain ⟨a, d, h1, h2, h3⟩ := hk.root b i hb
    rw [h1]
    exact congrArg some ((lookup_iff hk.tidy dir id a i).2 ⟨d, h3, h2⟩)

/-- C98: an exit code 0 means that every wanted target that can be made is up to date. -/
theorem C98_up_to_date_partial (h : Loaded w fuel entries dir fl active s p order keys t ids) (hdot : NoDot t) (ht : cfg.targets = ids)
    (hall : cfg.buildAll = false) (hun : Unambiguous abs (fun n => disk (abs n)) (dbOf t dir) ids)
    (hrun : Run (env t dir abs) cfg (info t) disk (Behaves (env t dir abs) cfg (dbOf t dir)) j) (h0 : 0 ∈ j.s.exits) :
    InOrder (fun n => j.m.files.disk (abs n)) (dbOf t dir) ids := by
  obtain ⟨_, _, _, _, _, _, _, _, hp⟩ := C76_prepared h
  subst ht
  rw [info_fresh t dir] at hrun
  exact C69_exit_zero_means_up_to_date_partial (env := env t dir abs) (db := dbOf t dir) rfl (dbOf_key hp.known.tidy hdot dir abs) rfl hall hun hrun h0

theorem dbOf_few {F : Str → List Rule} (hti : Tidy t F) (hids : ∀ r ∈ ids, r < t.table.targets.length) {n : Nat} (hn : t.table.targets.length < n) :
    FewerThan (dbOf t dir) ids n := by
  refine ⟨List.range t.table.targets.length, fun r hr => List.mem_range.2 (hids r hr), fun x _ k hk => ?_, by simpa using hn⟩
  have : ∀ m, (dbOf t dir).lookup m = some k → k < t.table.targets.length := by
    intro m hm
    obtain ⟨e, h1, _⟩ := (env_lookup hti dir id m k).1 hm
    exact (List.getElem?_eq_some_iff.1 h1).1
  obtain ⟨d, _, hk | ⟨_, hk⟩⟩ := hk <;> exact List.mem_range.2 (this _ hk)

/-- C98: the next run of jom for this makefile starts no command and ends with exit code 0. -/
theorem C98_second_build_partial (h : Loaded w fuel entries dir fl active s p order keys t ids) (hdot : NoDot t) (ht : cfg.targets = ids)
    (hall : cfg.buildAll = false) (hun : Unambiguous abs (fun n => disk (abs n)) (dbOf t dir) ids)
    (hrun : Run (env t dir abs) cfg (info t) disk (Behaves (env t dir abs) cfg (dbOf t dir)) j) (h0 : 0 ∈ j.s.exits)
    (hall' : cfg'.buildAll = false) (ht' : cfg'.targets = ids) (hfuel : t.table.targets.length < cfg'.fuel) {j' : J}
    (hrun' : Run (env t dir abs) cfg' (info t) j.m.files.disk NobodyWrites j') :
    (∀ b t, Ev.started b t ∉ j'.s.log) ∧ (∀ b t, Ev.failed b t ∉ j'.s.log) ∧ Ev.exception ∉ j'.s.log ∧
    j'.m.files.disk = j.m.files.disk ∧ (∀ c ∈ j'.s.exits, c = 0) ∧ (0 < cfg'.jobs → j'.s.exits = [] → 0 < j'.s.queued) := by
  obtain ⟨_, _, _, _, _, _, _, _, hp⟩ := C76_prepared h
  have hk := hp.known
  subst ht
  rw [info_fresh t dir] at hrun hrun'
  refine C69_second_build_partial (env := env t dir abs) (db := dbOf t dir) rfl (dbOf_key hk.tidy hdot dir abs) rfl hall hun hrun h0 hall'
    (fun r hr => ⟨r, ht' ▸ hr, .refl⟩) (dbOf_few hk.tidy (fun r hr => ?_) hfuel) hrun'
  rw [ht'] at hr
  obtain ⟨b, hb⟩ := List.getElem?_of_mem hr
  obtain ⟨a, d, _, h2, _⟩ := hk.root b r hb
  obtain ⟨e, h1, _⟩ := entry_iff.1 h2
  exact (List.getElem?_eq_some_iff.1 h1).1

/-- C98: only what was out of date, or depends on something that was, is made. -/
theorem C98_rebuilt_partial (h : Loaded w fuel entries dir fl active s p order keys t ids) (hdot : NoDot t) (ht : cfg.targets = ids)
    (hall : cfg.buildAll = false) (hun : Unambiguous abs (fun n => disk (abs n)) (dbOf t dir) ids)
    (hrun : Run (env t dir abs) cfg (info t) disk (Behaves (env t dir abs) cfg (dbOf t dir)) j)
    (hok : cfg.keepGoing = false ∨ ∀ b t, Ev.failed b t ∉ j.s.log) {b x : Nat} (hx : Ev.started b x ∈ j.s.log) :
    Wanted (dbOf t dir) ids x ∧
    ∃ y, ReflTransGen (Spec.Build.Needs (dbOf t dir)) x y ∧ Buildable (fun n => disk (abs n)) (dbOf t dir) y ∧
      ¬ UpToDate (fun n => disk (abs n)) (dbOf t dir) y := by
  obtain ⟨_, _, _, _, _, _, _, _, hp⟩ := C76_prepared h
  subst ht
  rw [info_fresh t dir] at hrun
  exact C94_only_what_depends_on_stale_partial (env := env t dir abs) (db := dbOf t dir) rfl (dbOf_key hp.known.tidy hdot dir abs) rfl hall hun hrun hok hx

/-- C98: exactly what is made, see `C94_exactly_partial`. -/
theorem C98_exactly_partial (h : Loaded w fuel entries dir fl active s p order keys t ids) (hdot : NoDot t) (ht : cfg.targets = ids)
    (hall : cfg.buildAll = false) (hun : Unambiguous abs (fun n => disk (abs n)) (dbOf t dir) ids)
    (hrun : Run (env t dir abs) cfg (info t) disk (fun j e => Behaves (env t dir abs) cfg (dbOf t dir) j e ∧ WritesLater disk e) j)
    (h0 : 0 ∈ j.s.exits)
    (hplain : ∀ k, Wanted (dbOf t dir) ids k → ¬ Buildable (fun n => j.m.files.disk (abs n)) (dbOf t dir) k →
      disk (abs ((dbOf t dir).target k).name) ≠ none → ∀ y, ¬ Spec.Build.Needs (dbOf t dir) k y) (x : Nat) :
    (∃ b, Ev.started b x ∈ j.s.log) ↔ Wanted (dbOf t dir) ids x ∧ Buildable (fun n => j.m.files.disk (abs n)) (dbOf t dir) x ∧
      ∃ y, ReflTransGen (Spec.Build.Needs (dbOf t dir)) x y ∧ Buildable (fun n => j.m.files.disk (abs n)) (dbOf t dir) y ∧
        ¬ UpToDate (fun n => disk (abs n)) (dbOf t dir) y := by
  obtain ⟨_, _, _, _, _, _, _, _, hp⟩ := C76_prepared h
  subst ht
  rw [info_fresh t dir] at hrun
  exact C94_exactly_partial (env := env t dir abs) (db := dbOf t dir) rfl (dbOf_key hp.known.tidy hdot dir abs) rfl hall hun hrun h0 hplain x

/-- C98: what the files of the wanted targets contain is what the recipes make of the files that count. -/
theorem C98_content_partial {C : Type} {recipe : Nat → (Str → C → Prop) → C} {content content' : Str → C}
    (h : Loaded w fuel entries dir fl active s p order keys t ids) (hdot : NoDot t) (ht : cfg.targets = ids)
    (hall : cfg.buildAll = false) (hun : Unambiguous abs (fun n => disk (abs n)) (dbOf t dir) ids)
    (hstart : StartsCorrect recipe (fun n => disk (abs n)) (fun n => content (abs n)) (dbOf t dir) ids)
    (hrun : Traced (env t dir abs) cfg (info t) disk content
      (fun j c e => FollowsRecipes (env t dir abs) cfg (dbOf t dir) recipe j c e ∧ WritesLater disk e) j content') (h0 : 0 ∈ j.s.exits) :
    ∀ k, Wanted (dbOf t dir) ids k → Buildable (fun n => j.m.files.disk (abs n)) (dbOf t dir) k →
      Spec.Build.Correct recipe (fun n => j.m.files.disk (abs n)) (fun n => content' (abs n)) (dbOf t dir) k := by
  obtain ⟨_, _, _, _, _, _, _, _, hp⟩ := C76_prepared h
  subst ht
  rw [info_fresh t dir] at hrun
  exact C74_content_partial (env := env t dir abs) (db := dbOf t dir) rfl (dbOf_key hp.known.tidy hdot dir abs) rfl hall hun hstart hrun h0

/-- jom has found all cycles when it has read the makefile (unless targets are found through the directory of the makefile): the condition `acyclic` of
`Unambiguous` holds. -/
theorem C98_acyclic_partial (h : Loaded w fuel entries dir fl active s p order keys t ids) (hd : NoDir t dir) {k : Nat} (hk : Wanted (dbOf t dir) ids k) :
    ¬ TransGen (Spec.Build.Needs (dbOf t dir)) k k := by
  obtain ⟨_, _, _, _, _, _, _, _, hp⟩ := C76_prepared h
  have hn := hp.known
  have hti := hn.tidy
  have edge : ∀ {i j : Nat} {d : Described}, t.entry i = some d → Spec.Build.Needs (dbOf t dir) i j →
      ∃ d', t.entry j = some d' ∧ Leads t.target d.name d'.name := by
    intro i j d hi hij
    obtain ⟨x, hx, hj⟩ := hij
    have hj : (dbOf t dir).lookup x = some j := by
      rcases hj with hj | ⟨_, hj⟩
      · exact hj
      · obtain ⟨d', h1, _⟩ := (lookup_iff hti dir id _ j).1 hj
        rw [show (dbOf t dir).dir = dir from rfl, hd x] at h1
        cases h1
    obtain ⟨d', h1, h2⟩ := (lookup_iff hti dir id x j).1 hj
    obtain ⟨e, he, rfl⟩ := entry_iff.1 hi
    refine ⟨d', h2, describe e.2, hti.entry_target hi, ⟨x, ?_, (hti.target_name h1).symm⟩, by rw [hti.entry_target h2]; simp⟩
    simpa only [dbOf, info_entry he, describe] using hx
  have star : ∀ {i j : Nat} {d : Described}, t.entry i = some d → ReflTransGen (Spec.Build.Needs (dbOf t dir)) i j →
      ∃ d', t.entry j = some d' ∧ ReflTransGen (Leads t.target) d.name d'.name := by
    intro i j d hi hij
    induction hij with
    | refl => exact ⟨d, hi, .refl⟩
    | tail _ h2 ih =>
      obtain ⟨d1, e1, e2⟩ := ih
      obtain ⟨d2, e3, e4⟩ := edge e1 h2
      exact ⟨d2, e3, e2.tail e4⟩
  obtain ⟨r, hr, hrk⟩ := hk
  obtain ⟨b, hb⟩ := List.getElem?_of_mem hr
  obtain ⟨a, d, h1, h2, h3⟩ := hn.root b r hb
  obtain ⟨d1, e1, e2⟩ := star h2 hrk
  intro hc
  obtain ⟨m, hm1, hm2⟩ := TransGen.head'_iff.1 hc
  obtain ⟨dm, f1, f2⟩ := edge e1 hm1
  obtain ⟨d3, f3, f4⟩ := star f1 hm2
  rw [e1] at f3
  cases f3
  have hstart : ∀ {x : Str}, ReflTransGen (Leads t.target) d.name x → x = d.name ∨ ReflTransGen (Leads t.target) a x := by
    intro x hx
    induction hx with
    | refl => exact .inl rfl
    | tail _ h5 ih =>
      rcases ih with rfl | ih
      · refine .inr (.single ?_)
        obtain ⟨d', g1, g2⟩ := h5
        rw [hti.entry_target h2] at g1
        cases g1
        exact ⟨d, h3, g2⟩
      · exact .inr (ih.tail h5)
  have hcyc : TransGen (Leads t.target) d1.name d1.name := TransGen.head'_iff.2 ⟨_, f2, f4⟩
  refine hn.acyclic ⟨a, List.mem_of_getElem? h1, ?_⟩
  rcases hstart e2 with he | he
  · -- the cycle goes through the requested target itself
    rw [he] at hcyc
    obtain ⟨m, g1, g2⟩ := TransGen.head'_iff.1 hcyc
    obtain ⟨d', q1, q2⟩ := g1
    rw [hti.entry_target h2] at q1
    cases q1
    have hl : Leads t.target a m := ⟨d, h3, q2⟩
    refine ⟨m, .single hl, ?_⟩
    have hml : Leads t.target d.name m := ⟨d, hti.entry_target h2, q2⟩
    rcases Relation.reflTransGen_iff_eq_or_transGen.1 g2 with g2 | g2
    · rw [← g2]; exact hcyc
    · exact g2.tail hml
  · exact ⟨_, he, hcyc⟩

end

section

open Jom.Main Jom.Cmd Jom.Spec.Cmd Jom.Spec.Main

variable {w : Outside} {args args' : List Str} {items : List Item} {plain : List Str} {b : Main.Build}

/-- C98 in terms of the command line: jom without `/A` that ends with exit code 0 leaves the targets of the command line (else the first target of the
makefile) and everything they need up to date. -/
theorem C98_command_line_partial {cfg : Sched.Cfg} {abs : Str → Str} {disk : Str → Option Nat} {j : J}
    (h : main w args = .build b) (he : expandCommandFiles w.commandFile (arguments w args) = .ok args')
    (ha : Args items plain args') (horder : ∀ l, (w.order l).Perm l) (hkeys : ∀ rs, HashOrder rs (w.keys rs))
    (hne : b.p.table.targets ≠ [])
    (hq : ∀ n d, tableSays (applySync b.p.table (w.order b.p.table.sync)) n = some d → ∀ x ∈ d.deps, ¬ Enclosed x)
    (hcfg : Configured b cfg) (hA : ¬ Given items 'A') (hdot : NoDot b.tab)
    (hun : Unambiguous abs (fun n => disk (abs n)) (dbOf b.tab b.dir) b.ids)
    (hrun : Run (env b.tab b.dir abs) cfg (info b.tab) disk (Behaves (env b.tab b.dir abs) cfg (dbOf b.tab b.dir)) j) (h0 : 0 ∈ j.s.exits) :
    (∃ t s, Begins w args t ∧ PP.openFile w.world ((fileNames items).getLast?.getD c!"Makefile") { table := t } = .ok s ∧
      ∃ fl : Flags, parse (ppSource w.world w.fuel) (Wildcards.files w.entries b.dir) w.fuel fl.silent (!fl.ignore) s = .ok b.p) ∧
    Ready (tableSays (applySync b.p.table (w.order b.p.table.sync))) (Candidate b.p.rules b.p.suffixes) (wanted b.p.table (goals plain))
      b.tab.target b.tab.candidates ∧
    Reflects b.tab.target b.tab.candidates b.dir (dbOf b.tab b.dir) ∧
    (wanted b.p.table (goals plain)).map (dbOf b.tab b.dir).lookup = b.ids.map some ∧
    InOrder (fun n => j.m.files.disk (abs n)) (dbOf b.tab b.dir) b.ids := by
  obtain ⟨fl, t, s, h1, _, _, h3, _, hload⟩ := C78_loaded h he ha horder hkeys hne hq
  have hall : cfg.buildAll = false := by
    rw [Bool.eq_false_iff]
    exact fun hx => hA ((C78_settings h he ha hcfg).2.1.1 hx)
  obtain ⟨g1, g2, g3⟩ := C98_makefile hload
  exact ⟨⟨t, s, h1, h3, fl, hload.parsed.1⟩, g1, g2, g3, C98_up_to_date_partial hload hdot hcfg.targets hall hun hrun h0⟩

end

/-! ### The makefile of C78, `app` is made from `foo.obj` and this by a rule from `foo.c`; only `foo.c` exists -/

namespace EndCase

open MainCase (b disk cfgOf known)

def rule : Rule :=
  { batch := false, fromPath := c!".", fromExt := c!".c", toPath := c!".", toExt := c!".obj", priority := some 3
    commands := [{ cmd := { line := c!"cl $(OPT)" } }] }

def app : DBlock := { name := c!"app", deps := [c!"foo.obj"], cmds := [{ cmd := { line := c!"link" } }], enabled := false }

def obj : DBlock := { name := c!"foo.obj", deps := [], cmds := [], enabled := false }

/-- The table of this makefile. -/
def tab : Tab :=
  { table := { targets := [(c!"app", app), (c!"foo.obj", obj)], first := some c!"app", sync := [(c!"foo.obj", [])] }
    rules := [(c!"foo.obj", [rule])]
    done := [c!"app"] }

theorem tab_eq : b.tab = tab := by decide +kernel
theorem dir_eq : b.dir = c!"c:/d" := by decide +kernel
theorem ids_eq : b.ids = [0] := by decide +kernel

abbrev db : Db := dbOf tab c!"c:/d"

abbrev e0 : Env := env tab c!"c:/d" toLower

def cfg : Sched.Cfg :=
  { jobs := 4, keepGoing := false, buildAll := false, dumpGraph := false, targets := [0], deps := fun _ => firstDeps tab c!"c:/d" disk, fuel := 5 }

theorem cfg_eq : cfgOf b = cfg := by
  have h1 : b.jobs = 4 := by decide +kernel
  have h2 : b.line.st.opts.buildUnrelatedTargetsOnError = false := by decide +kernel
  have h3 : b.line.st.opts.buildAllTargets = false := by decide +kernel
  have h4 : b.line.st.opts.dumpDependencyGraph = false := by decide +kernel
  simp only [cfgOf, cfg, tab_eq, dir_eq, ids_eq, h1, h2, h3, h4]

theorem tidy : ∃ f, Tidy tab f := tab_eq ▸ known

theorem lookup_inv {n : Str} {k : Nat} (h : db.lookup n = some k) : (canon n = c!"app" ∧ k = 0) ∨ (canon n = c!"foo.obj" ∧ k = 1) := by
  obtain ⟨e, h1, h2⟩ := (env_lookup tidy.choose_spec c!"c:/d" id n k).1 h
  have hl : tab.table.targets.map (·.1) = [c!"app", c!"foo.obj"] := by decide +kernel
  have h3 : (tab.table.targets.map (·.1))[k]? = some e.1 := by simp [h1]
  rw [hl] at h3
  rw [← h2]
  match k, h3 with
  | 0, h3 => exact .inl ⟨by simpa using h3.symm, rfl⟩
  | 1, h3 => exact .inr ⟨by simpa using h3.symm, rfl⟩
  | k + 2, h3 => simp at h3

theorem noDot : NoDot tab := by
  intro n
  cases hn : tab.target ('.' :: '\\' :: n) with
  | none => rfl
  | some d =>
    obtain ⟨k, hk⟩ := tidy.choose_spec.target_entry hn
    have h := (lookup_iff tidy.choose_spec c!"c:/d" id _ k).2 ⟨d, hn, hk⟩
    have h' : db.lookup ('.' :: '\\' :: n) = some k := h
    rcases lookup_inv h' with ⟨h, _⟩ | ⟨h, _⟩ <;> exact absurd (congrArg List.head? h) (by simp only [canon, toLower, List.map_cons, List.head?_cons]; decide)

theorem deps0 : (db.target 0).deps = [c!"foo.obj"] := by decide +kernel
theorem deps1 : (db.target 1).deps = [] := by decide +kernel
theorem rules0 : (db.target 0).rules = [] := by decide +kernel
theorem rules1 : (db.target 1).rules = [c!"foo.c"] := by decide +kernel
theorem name0 : (db.target 0).name = c!"app" := by decide +kernel
theorem name1 : (db.target 1).name = c!"foo.obj" := by decide +kernel
theorem cmds0 : (db.target 0).hasCmds = true := by decide +kernel
theorem cmds1 : (db.target 1).hasCmds = false := by decide +kernel

theorem resolves_inv {n : Str} {k : Nat} (hn : n = c!"foo.obj" ∨ n = c!"foo.c") (h : Resolves db n k) : n = c!"foo.obj" ∧ k = 1 := by
  rcases h with h | ⟨_, h⟩
  · rcases lookup_inv h with ⟨h, _⟩ | ⟨h, rfl⟩
    · rcases hn with rfl | rfl <;> exact absurd h (by decide +kernel)
    · rcases hn with rfl | rfl
      · exact ⟨rfl, rfl⟩
      · exact absurd h (by decide +kernel)
  · rcases lookup_inv h with ⟨h, _⟩ | ⟨h, _⟩ <;> rcases hn with rfl | rfl <;> exact absurd h (by decide +kernel)

theorem needs_inv {i k : Nat} (hi : i = 0 ∨ i = 1) (h : Spec.Build.Needs db i k) : i = 0 ∧ k = 1 := by
  obtain ⟨d, hd, h⟩ := h
  rcases hi with rfl | rfl
  · rw [deps0] at hd
    exact ⟨rfl, (resolves_inv (.inl (by simpa using hd)) h).2⟩
  · rw [deps1] at hd
    cases hd

theorem wanted {k : Nat} (h : Wanted db [0] k) : k = 0 ∨ k = 1 := by
  obtain ⟨r, hr, h⟩ := h
  have : r = 0 := by simpa using hr
  subst this
  induction h with
  | refl => exact .inl rfl
  | tail _ h ih => exact .inr (needs_inv ih h).2

theorem mentions {k : Nat} (hk : Wanted db [0] k) {n : Str} (hn : n ∈ (db.target k).deps ∨ n ∈ (db.target k).rules) :
    n = c!"foo.obj" ∧ k = 0 ∨ n = c!"foo.c" ∧ k = 1 := by
  rcases wanted hk with rfl | rfl
  · rw [deps0, rules0] at hn
    exact .inl ⟨by simpa using hn, rfl⟩
  · rw [deps1, rules1] at hn
    exact .inr ⟨by simpa using hn, rfl⟩

theorem disk_le {x : Str} {s : Nat} (h : disk x = some s) : s = 1 := by
  unfold disk at h
  split at h
  · cases h; rfl
  · cases h

theorem unambiguous : Unambiguous toLower (fun n => disk (toLower n)) db [0] where
  names := by
    intro t ht n hn k hk
    have hn' : n = c!"foo.obj" ∨ n = c!"foo.c" := (mentions ht hn).imp (·.1) (·.1)
    constructor
    · intro h
      obtain ⟨rfl, rfl⟩ := resolves_inv hn' h
      rw [name1]
    · intro h
      rcases wanted hk with rfl | rfl
      · rw [name0] at h
        rcases hn' with rfl | rfl <;> exact absurd h (by decide +kernel)
      · rw [name1] at h
        rcases hn' with rfl | rfl
        · exact .inl (by decide +kernel)
        · exact absurd h (by decide +kernel)
  distinct := by
    intro k l hk hl
    rcases wanted hk with rfl | rfl <;> rcases wanted hl with rfl | rfl <;> simp only [name0, name1] <;> decide +kernel
  inferred := by
    intro t ht r hr k hk
    rcases mentions ht (.inr hr) with ⟨rfl, rfl⟩ | ⟨rfl, rfl⟩
    · rw [rules0] at hr; cases hr
    · exact absurd (resolves_inv (.inr rfl) hk).1 (by decide)
  viaDir := by
    intro t ht n hn h
    rcases mentions ht (.inl hn) with ⟨rfl, rfl⟩ | ⟨rfl, rfl⟩
    · exact absurd h (by decide +kernel)
    · rw [deps1] at hn; cases hn
  acyclic := by
    obtain ⟨_, _, _, _, _, _, _, _, hl⟩ := C78_loaded MainCase.build MainCase.expanded MainCase.spelled (fun l => .refl _) MainCase.hash
      (by decide +kernel) MainCase.unquoted
    rw [tab_eq, dir_eq, ids_eq] at hl
    exact fun t ht => C98_acyclic_partial hl (noDir tidy.choose_spec _ (by decide +kernel)) ht
  oneRule := by
    intro t ht r hr r' hr' _ _
    rcases mentions ht (.inr hr) with ⟨rfl, rfl⟩ | ⟨rfl, rfl⟩
    · rw [rules0] at hr; cases hr
    · rw [rules1] at hr'
      exact (by rw [show r' = c!"foo.c" by simpa using hr'])
  filled := by
    intro t ht
    rcases wanted ht with rfl | rfl
    · exact .inl (by rw [deps0]; simp)
    · exact .inr (.inr (.inr ⟨c!"foo.c", by rw [rules1]; simp, by decide +kernel⟩))
  times := by
    intro n s h
    rw [disk_le h]
    decide

def answers (now : Nat) : Answers := { BuildCase.answers with now := now }

/-- The next state. -/
def after (j : J) (e : Make.Event) : J := (Make.step e0 cfg j e).getD j

def j0 : J :=
  { s := Sched.init cfg, m := buildAsked e0 [] { info := info tab, files := { disk := disk, cache := [] } } }

def j1 : J := after j0 (.startProcesses (answers 1))
def j2 : J := after j1 (.write c!"foo.obj" (some 5))
def j3 : J := after j2 (.childFinished 0 false)
def j4 : J := after j3 (.startProcesses (answers 5))
def j5 : J := after j4 (.write c!"app" (some 6))
def j6 : J := after j5 (.childFinished 1 false)
def j7 : J := after j6 (.startProcesses (answers 9))

/-- `foo.obj` is made by the rule, then `app`. -/
theorem log7 : j7.s.log = [.started 0 1, .succeeded 0 1, .started 0 0, .succeeded 0 0] ∧ j7.s.exits = [0] := by decide +kernel

abbrev Runs (j : J) : Prop := Run e0 cfg (info tab) disk (Behaves e0 cfg db) j

theorem next {j : J} {e : Make.Event} (h : Runs j) (hok : Behaves e0 cfg db j e) (hs : (Make.step e0 cfg j e).isSome = true)
    (hb : (after j e).s.build = j.s.build) : Runs (after j e) := by
  obtain ⟨x, hx⟩ := Option.isSome_iff_exists.1 hs
  have ha : after j e = x := by unfold after; rw [hx]; rfl
  rw [ha] at hb ⊢
  have := Run.step (e := e) (j' := x) [] h hok hx (fun hne => absurd hb hne) (fun n hn => by cases hn)
  rwa [if_neg (by simp [hb])] at this


theorem disk2 : j2.m.files.disk = fun x => if x = c!"foo.obj" then some 5 else disk x := rfl
theorem disk3 : j3.m.files.disk = j2.m.files.disk := rfl
theorem disk5 : j5.m.files.disk = fun x => if x = c!"app" then some 6 else if x = c!"foo.obj" then some 5 else disk x := rfl
theorem disk6 : j6.m.files.disk = j5.m.files.disk := rfl

theorem work1 : DidWork (fun n => j2.m.files.disk (toLower n)) db 1 := by
  refine ⟨5, rfl, fun d hd s hs => ?_⟩
  have hd : d = c!"foo.c" := by
    rcases hd with hd | ⟨hd, _⟩
    · rw [deps1] at hd; cases hd
    · rw [rules1] at hd; simpa using hd
  subst hd
  rw [behind_of_file (f := fun n => j2.m.files.disk (toLower n)) (s := 1) rfl hs]
  decide

theorem work0 : DidWork (fun n => j5.m.files.disk (toLower n)) db 0 := by
  refine ⟨6, rfl, fun d hd s hs => ?_⟩
  have hd : d = c!"foo.obj" := by
    rcases hd with hd | ⟨hd, _⟩
    · rw [deps0] at hd; simpa using hd
    · rw [rules0] at hd; cases hd
  subst hd
  rw [behind_of_file (f := fun n => j5.m.files.disk (toLower n)) (s := 5) rfl hs]
  decide

theorem run7 : Runs j7 := by
  have h0 : Runs j0 := Run.start [] (fun t => rfl) (fun n hn => by cases hn)
  have h1 : Runs j1 := next h0 ⟨fun x s h => by rw [disk_le h]; exact Nat.le_refl 1, works_running⟩ (by decide +kernel) (by decide +kernel)
  have h2 : Runs j2 := next h1 ⟨by decide, .inl ⟨1, by decide +kernel, rfl, by decide⟩⟩ (by decide +kernel) (by decide +kernel)
  have h3 : Runs j3 := next h2 (fun _ t ht => by
    have hb : j2.s.busy = [(0, 1)] := by decide +kernel
    rw [hb] at ht
    have : t = 1 := by simpa using ht
    subst this
    exact work1) (by decide +kernel) (by decide +kernel)
  have h4 : Runs j4 := next h3 ⟨fun x s h => by
    rw [disk3, disk2] at h
    simp only at h
    split at h
    · cases h; exact Nat.le_refl 5
    · rw [disk_le h]; show 1 ≤ 5; decide, works_running⟩ (by decide +kernel) (by decide +kernel)
  have h5 : Runs j5 := next h4 ⟨by decide, .inl ⟨0, by decide +kernel, rfl, by decide⟩⟩ (by decide +kernel) (by decide +kernel)
  have h6 : Runs j6 := next h5 (fun _ t ht => by
    have hb : j5.s.busy = [(1, 0)] := by decide +kernel
    rw [hb] at ht
    have : t = 0 := by simpa using ht
    subst this
    exact work0) (by decide +kernel) (by decide +kernel)
  exact next h6 ⟨fun x s h => by
    show s ≤ 9
    rw [disk6, disk5] at h
    simp only at h
    split at h
    · cases h; decide
    · split at h
      · cases h; decide
      · rw [disk_le h]; decide, works_running⟩ (by decide +kernel) (by decide +kernel)

/-- The theorem applies to this call of jom. -/
example : InOrder (fun n => j7.m.files.disk (toLower n)) (dbOf b.tab b.dir) b.ids := by
  refine (C98_command_line_partial MainCase.build MainCase.expanded MainCase.spelled (fun l => .refl _) MainCase.hash (by decide +kernel)
    MainCase.unquoted (MainCase.configured b) ?_ (tab_eq ▸ noDot) (disk := disk) ?_ (j := j7) ?_ (by decide +kernel)).2.2.2.2
  · rintro ⟨c, hc, h⟩
    simp only [MainCase.items, List.mem_cons, List.not_mem_nil, or_false, Spec.Cmd.Item.flag.injEq, reduceCtorEq] at hc
    subst hc
    exact absurd h (by decide)
  · rw [tab_eq, dir_eq, ids_eq]; exact unambiguous
  · rw [tab_eq, dir_eq, cfg_eq]; exact run7

theorem loaded : ∃ fl s, Loaded MainCase.w.world MainCase.w.fuel MainCase.w.entries c!"c:/d" fl (goals MainCase.plain) s b.p
    (MainCase.w.order b.p.table.sync) (MainCase.w.keys b.p.rules) tab [0] := by
  obtain ⟨fl, _, s, _, _, _, _, _, hl⟩ := C78_loaded MainCase.build MainCase.expanded MainCase.spelled (fun l => .refl _) MainCase.hash
    (by decide +kernel) MainCase.unquoted
  rw [tab_eq, dir_eq, ids_eq] at hl
  exact ⟨fl, s, hl⟩

/-! The same run with contents of one bit: `foo.obj` is a copy of `foo.c` and `app` one of `foo.obj`. -/

def recipe (t : Nat) (s : Str → Prop → Prop) : Prop := if t = 0 then s c!"foo.obj" True else s c!"foo.c" True

def content : Str → Prop := fun n => n = c!"foo.c"

theorem correct1 {f : Files} {c : Str → Prop} (h1 : f c!"foo.c" ≠ none) (h : c c!"foo.obj" ↔ c c!"foo.c") :
    Spec.Build.Correct recipe f c db 1 := by
  have hm : MadeFrom f db 1 c!"foo.c" := ⟨_, .inr ⟨by rw [rules1]; simp, Option.ne_none_iff_exists'.1 h1⟩, .file h1⟩
  show c c!"foo.obj" = (MadeFrom f db 1 c!"foo.c" ∧ c c!"foo.c" = True)
  simp [hm, h]

theorem correct0 {f : Files} {c : Str → Prop} (h1 : f c!"foo.obj" ≠ none) (h : c c!"app" ↔ c c!"foo.obj") :
    Spec.Build.Correct recipe f c db 0 := by
  have hm : MadeFrom f db 0 c!"foo.obj" := ⟨_, .inl (by rw [deps0]; simp), .file h1⟩
  show c c!"app" = (MadeFrom f db 0 c!"foo.obj" ∧ c c!"foo.obj" = True)
  simp [hm, h]

abbrev Traces (j : J) (c : Str → Prop) : Prop :=
  Traced e0 cfg (info tab) disk content (fun j c e => FollowsRecipes e0 cfg db recipe j c e ∧ WritesLater disk e) j c

theorem nextTrace {j : J} {c : Str → Prop} (e : Make.Event) (c' : Str → Prop) (h : Traces j c)
    (hok : FollowsRecipes e0 cfg db recipe j c' e ∧ WritesLater disk e) (hs : (Make.step e0 cfg j e).isSome = true)
    (hb : (after j e).s.build = j.s.build) (hc : ∀ x, (∀ value, e ≠ .write x value) → c' x = c x) : Traces (after j e) c' := by
  obtain ⟨x, hx⟩ := Option.isSome_iff_exists.1 hs
  have ha : after j e = x := by unfold after; rw [hx]; rfl
  rw [ha] at hb ⊢
  have := Traced.step (e := e) (j' := x) [] h hok hx (fun x hx => hc x (not_touched hx)) (fun hne => absurd hb hne) (fun n hn => by cases hn)
  rwa [if_neg (by simp [hb])] at this

theorem trace7 : Traces j7 (ContentCase.made c!"app" (ContentCase.made c!"foo.obj" content)) := by
  have hw : ∀ file (n : Nat), 1 < n → WritesLater disk (.write file (some n)) := by
    intro file n hn f τ he x s hs
    cases he.2
    rw [disk_le hs]
    exact hn
  have h0 : Traces j0 content := Traced.start [] (fun t => rfl) (fun n hn => by cases hn)
  have h1 : Traces j1 content := nextTrace (.startProcesses (answers 1)) content h0
    ⟨⟨⟨fun x s h => by rw [disk_le h]; exact Nat.le_refl 1, works_running⟩, no_success rfl⟩, later_quiet rfl⟩
    (by decide +kernel) (by decide +kernel) (fun _ _ => rfl)
  have h2 : Traces j2 (ContentCase.made c!"foo.obj" content) := nextTrace (.write c!"foo.obj" (some 5)) _ h1
    ⟨⟨⟨by decide, .inl ⟨1, by decide +kernel, rfl, by decide⟩⟩, no_success rfl⟩, hw _ 5 (by decide)⟩
    (by decide +kernel) (by decide +kernel) ContentCase.made_other
  have h3 : Traces j3 (ContentCase.made c!"foo.obj" content) := nextTrace (.childFinished 0 false) _ h2
    ⟨⟨fun _ => ContentCase.only (t' := 1) (by decide +kernel) work1, by
      refine succeeds_child ?_
      exact ContentCase.only (t' := 1) (by decide +kernel) (correct1 (by decide +kernel) (by
        show ContentCase.made c!"foo.obj" content c!"foo.obj" ↔ ContentCase.made c!"foo.obj" content c!"foo.c"
        simp [ContentCase.made, content]))⟩, later_quiet rfl⟩
    (by decide +kernel) (by decide +kernel) (fun _ _ => rfl)
  have h4 : Traces j4 (ContentCase.made c!"foo.obj" content) := nextTrace (.startProcesses (answers 5)) _ h3
    ⟨⟨⟨fun x s h => by
      rw [disk3, disk2] at h
      simp only at h
      split at h
      · cases h; exact Nat.le_refl 5
      · rw [disk_le h]; show 1 ≤ 5; decide, works_running⟩, no_success rfl⟩, later_quiet rfl⟩
    (by decide +kernel) (by decide +kernel) (fun _ _ => rfl)
  have h5 : Traces j5 _ := nextTrace (.write c!"app" (some 6)) (ContentCase.made c!"app" (ContentCase.made c!"foo.obj" content)) h4
    ⟨⟨⟨by decide, .inl ⟨0, by decide +kernel, rfl, by decide⟩⟩, no_success rfl⟩, hw _ 6 (by decide)⟩
    (by decide +kernel) (by decide +kernel) ContentCase.made_other
  have h6 : Traces j6 _ := nextTrace (.childFinished 1 false) _ h5
    ⟨⟨fun _ => ContentCase.only (t' := 0) (by decide +kernel) work0, by
      refine succeeds_child ?_
      exact ContentCase.only (t' := 0) (by decide +kernel) (correct0 (by decide +kernel) (by
        show ContentCase.made c!"app" (ContentCase.made c!"foo.obj" content) c!"app" ↔
          ContentCase.made c!"app" (ContentCase.made c!"foo.obj" content) c!"foo.obj"
        simp [ContentCase.made, content]))⟩, later_quiet rfl⟩
    (by decide +kernel) (by decide +kernel) (fun _ _ => rfl)
  exact nextTrace (.startProcesses (answers 9)) _ h6
    ⟨⟨⟨fun x s h => by
      show s ≤ 9
      rw [disk6, disk5] at h
      simp only at h
      split at h
      · cases h; decide
      · split at h
        · cases h; decide
        · rw [disk_le h]; decide, works_running⟩, no_success rfl⟩, later_quiet rfl⟩
    (by decide +kernel) (by decide +kernel) (fun _ _ => rfl)

/-- At the start there is nothing that looks up to date. -/
theorem startsCorrect : StartsCorrect recipe (fun n => disk (toLower n)) (fun n => content (toLower n)) db [0] := by
  intro x hx _ ⟨T, hT, _⟩
  rcases wanted hx with rfl | rfl <;> cases hT

example {k : Nat} (hk : Wanted db [0] k) (hb : Buildable (fun n => j7.m.files.disk (toLower n)) db k) :
    Spec.Build.Correct recipe (fun n => j7.m.files.disk (toLower n))
      (fun n => ContentCase.made c!"app" (ContentCase.made c!"foo.obj" content) (toLower n)) db k := by
  obtain ⟨_, _, hl⟩ := loaded
  exact C98_content_partial hl noDot rfl rfl unambiguous startsCorrect trace7 (by decide +kernel) k hk hb

/-- What is started was out of date or needs something that was. -/
example {b x : Nat} (hx : Ev.started b x ∈ j7.s.log) :
    ∃ y, ReflTransGen (Spec.Build.Needs db) x y ∧ ¬ UpToDate (fun n => disk (toLower n)) db y := by
  obtain ⟨_, _, hl⟩ := loaded
  obtain ⟨_, y, h1, _, h2⟩ := C98_rebuilt_partial hl noDot rfl rfl unambiguous run7 (.inl rfl) hx
  exact ⟨y, h1, h2⟩

/-- `app` is made because it needs `foo.obj`, which does not exist. -/
example : ∃ b, Ev.started b 0 ∈ j7.s.log := by
  obtain ⟨_, _, hl⟩ := loaded
  refine (C98_exactly_partial hl noDot rfl rfl unambiguous (trace7.toRun fun _ _ _ h => ⟨h.1.1, h.2⟩) (by decide +kernel) (fun k hk hb _ y hn => ?_) 0).2
    ⟨⟨0, by simp, .refl⟩, .inl cmds0, 1, .single ⟨c!"foo.obj", by rw [deps0]; simp, .inl (by decide +kernel)⟩, ?_, ?_⟩
  · rcases wanted hk with rfl | rfl
    · exact hb (.inl cmds0)
    · exact absurd (needs_inv (.inr rfl) hn).1 (by decide)
  · exact .inr ⟨c!"foo.c", by rw [rules1]; simp, 1, by decide +kernel⟩
  · rintro ⟨T, hT, _⟩
    cases hT

/-- The next run. -/
def cfg' : Sched.Cfg := { cfg with deps := fun _ => firstDeps tab c!"c:/d" j7.m.files.disk }

example {j' : J} (h : Run e0 cfg' (info tab) j7.m.files.disk NobodyWrites j') : ∀ b t, Ev.started b t ∉ j'.s.log := by
  obtain ⟨_, _, hl⟩ := loaded
  exact (C98_second_build_partial hl noDot rfl rfl unambiguous run7 (by decide +kernel) rfl rfl (by decide +kernel) h).1

/-- There is such a run. -/
example : Run e0 cfg' (info tab) j7.m.files.disk NobodyWrites
    { s := Sched.init cfg', m := buildAsked e0 [] { info := info tab, files := { disk := j7.m.files.disk, cache := [] } } } :=
  Run.start [] (fun _ => rfl) (fun n hn => by cases hn)

end EndCase

end Jom.Props

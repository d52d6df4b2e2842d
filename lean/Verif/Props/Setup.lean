/-
C70: what jom is about to build is determined by what the makefile says.
-/
import Verif.Proofs.PrepareTable
import Verif.Props.Blocks
import Verif.Props.Inference

namespace Jom.Props

open Jom.Blocks Jom.Inference Jom.Prepare Relation
open Jom.Spec.Blocks (canon Enclosed Described described Mixed Good occurrences)
open Jom.Spec.Setup
open Jom.Spec.FileMacro (render)

/-! ### C70 -/

/-- A rule as it is stored: with its priority. -/
def Candidate (rules : List Rule) (suffixes : List Str) (path : Str) (r : Rule) : Prop :=
  ∃ r0, Fits rules suffixes path r0 ∧ r = withPriority suffixes r0

theorem candidate_iff {rules : List Rule} {suffixes keys : List Str} (hd : Defined rules) (hk : HashOrder rules keys) :
    (fun p r => r ∈ findRules (calculatePriorities suffixes rules) keys p) = Candidate rules suffixes := by
  funext p r
  exact propext (findRules_iff hd hk r)

theorem native_targets {bs : List Spec.Blocks.Block} (hg : Good magicEscape bs) : ∀ b ∈ bs.map ofSpec, ∀ t ∈ b.targets, '/' ∉ t := by
  intro b hb t ht
  obtain ⟨b, hb', rfl⟩ := List.mem_map.1 hb
  by_cases e : t = c!".NOTPARALLEL"
  · subst e; decide
  · exact hg.native (t, b) (List.mem_flatMap.2 ⟨b, hb', List.mem_map.2 ⟨t, List.mem_filter.2 ⟨ht, by simpa using e⟩, rfl⟩⟩)

/-- What a table says about a name. -/
def tableSays (mk : Mk) : Says := fun name => (mk.target name).map describe

theorem tableSays_eq {mk : Mk} (h : Keyed mk) (name : Str) : tableSays mk name = (find mk.targets (canon name)).map describe := by
  rw [tableSays, keyed_target h]

/-- What the table says after the translation of sync points, for a makefile without `.SYNC`. -/
theorem same_described {bs : List Spec.Blocks.Block} {n : Nat} {mk : Mk} (hr : addBlocks n {} (bs.map ofSpec) = .ok mk) (hk : Keyed mk)
    (hs : ∀ b ∈ bs, ∀ d ∈ b.deps, render '$' d ≠ c!".SYNC")
    (ht : ∀ name, (mk.target name).map (fun b => { name := b.name, deps := b.deps, cmds := b.cmds : Described }) = described bs name)
    {order : List (Str × List Str)} (ho : order.Perm mk.sync) :
    Same (described bs) (tableSays (applySync mk order)) := by
  have hempty : ∀ e ∈ order, e.2 = [] := by
    intro e he
    refine sync_empty hr (fun b hb hx => ?_) e (ho.mem_iff.1 he)
    obtain ⟨b, hb', rfl⟩ := List.mem_map.1 hb
    obtain ⟨d, hd, e⟩ := List.mem_map.1 hx
    exact hs b hb' d hd ((sync_mark d).1 e)
  intro name
  rw [← ht, keyed_target hk, tableSays_eq (applySync_keyed order hk)]
  rcases applySync_same order mk hempty (canon name) with ⟨h1, h2⟩ | ⟨b, b', h1, h2, h3⟩
  · exact Or.inl ⟨by rw [h1]; rfl, by rw [h2]; rfl⟩
  · exact Or.inr ⟨_, _, by rw [h1]; rfl, by rw [h2]; rfl, h3⟩

/-- C70: for any makefile without `.SYNC`, any inference rules, any iteration order of the hash tables (`order`, `keys`) and any
list of requested targets:
* a makefile without targets is accepted if nothing is requested;
* the first requested name that is not described is reported;
* otherwise the requested targets are built in the order given, or the target that is described first if none is requested; if a
  cycle can be reached from them, a target on a cycle is reported; otherwise the targets are the described ones and those named
  dependents that some inference rule fits, with the rules that fit as candidates (`Ready`).
Nothing is added for names that are not needed. Among the candidates, the rule of C27 is applied. -/
theorem C70_setup (bs : List Spec.Blocks.Block) (hg : Good magicEscape bs) (hm : ¬ Mixed bs)
    (hs : ∀ b ∈ bs, ∀ d ∈ b.deps, render '$' d ≠ c!".SYNC")
    (hdeps : ∀ n d, described bs n = some d → ∀ x ∈ d.deps, '/' ∉ x ∧ ¬ Enclosed x) (rules : List Rule) (hd : Defined rules)
    (suffixes active : List Str) :
    ∃ N, ∀ n ≥ N, ∃ mk, addBlocks n {} (bs.map ofSpec) = .ok mk ∧
      ∀ order, order.Perm mk.sync → ∀ keys, HashOrder rules keys →
        (occurrences bs = [] → active = [] → setup rules suffixes order keys active mk = .ok ({ table := mk }, [])) ∧
        (∀ a, (active.find? fun a => (described bs a).isNone) = some a →
          setup rules suffixes order keys active mk = .error (.noTarget a)) ∧
        ((∀ a ∈ active, described bs a ≠ none) → ∀ names, names ≠ [] →
          names = (if active = [] then ((occurrences bs).head?.map (·.1)).toList else active) →
          (Cyclic (described bs) names →
            ∃ x, setup rules suffixes order keys active mk = .error (.cycle x) ∧ TransGen (Leads (described bs)) x x) ∧
          (¬ Cyclic (described bs) names → ∃ t ids, setup rules suffixes order keys active mk = .ok (t, ids) ∧
            Ready (described bs) (Candidate rules suffixes) names t.target t.candidates ∧
            (∀ n d there, Named (described bs) names n → t.target n = some d → d.cmds = [] →
              chooseRule there d.name (t.candidates n) = appliedRule suffixes there rules keys d.name) ∧
            ids.map (fun k => (t.table.targets[k]?).map fun e => e.2.name) = names.map fun a => (described bs a).map (·.name))) := by
  obtain ⟨N, hN⟩ := C23_accumulate bs hg
  refine ⟨N, fun n hn => ?_⟩
  obtain ⟨mk, hr, ht, hf⟩ := (hN n hn).2 hm
  refine ⟨mk, hr, fun order ho keys hk => ?_⟩
  have hkeyed : Keyed mk := addBlocks_keyed _ keyed_empty (native_targets hg) hr
  have hsame := same_described hr hkeyed hs ht ho
  have hdeps' : ∀ n d, tableSays (applySync mk order) n = some d → ∀ x ∈ d.deps, '/' ∉ x ∧ ¬ Enclosed x := by
    intro n d h x hx
    rcases hsame n with ⟨_, h1⟩ | ⟨d1, d', h1, h2, _, _, h5⟩
    · rw [h1] at h; cases h
    · rw [h2] at h; cases h
      exact hdeps n d1 h1 x ((h5 x).1 hx)
  obtain ⟨h1, h2, h3⟩ := prepare_spec hkeyed order (said := tableSays (applySync mk order)) (fun _ => rfl) hdeps'
    rules suffixes keys active
  rw [candidate_iff hd hk] at h3
  have hhead : (mk.first.bind (find mk.targets)).map (·.name) = (occurrences bs).head?.map (·.1) := by
    rw [← hf]
    rcases hkeyed.first with ⟨_, e⟩ | ⟨k, b, e, hb⟩
    · rw [e]; rfl
    · rw [e]
      obtain ⟨e1, e2⟩ := hkeyed.keys k b hb
      simp only [Option.bind_some]
      rw [keyed_target hkeyed, e1, canon_lower e2]
  have hnil : occurrences bs = [] ↔ mk.targets = [] := by
    rcases hkeyed.first with ⟨e0, e⟩ | ⟨k, b, e, hb⟩
    · rw [e] at hhead
      simp only [Option.bind_none, Option.map_none] at hhead
      have : occurrences bs = [] := by
        cases ho : occurrences bs with
        | nil => rfl
        | cons o os => rw [ho] at hhead; cases hhead
      simp [this, e0]
    · rw [e] at hhead
      simp only [Option.bind_some, hb, Option.map_some] at hhead
      constructor
      · intro h; rw [h] at hhead; cases hhead
      · intro h; rw [h] at hb; cases hb
  have hisNone : ∀ a, (described bs a).isNone = (tableSays (applySync mk order) a).isNone := by
    intro a
    rcases hsame a with ⟨g1, g2⟩ | ⟨d1, d', g1, g2, _⟩ <;> simp [g1, g2]
  refine ⟨fun h ha => ?_, fun a ha => ?_, fun hact names hne hnames => ?_⟩
  · rw [h1 (hnil.1 h), ha]
  · by_cases ht0 : mk.targets = []
    · rw [h1 ht0]
      have hnone : ∀ a, (described bs a).isNone = true := by
        intro a
        rw [← ht, keyed_target hkeyed, ht0]; rfl
      cases active with
      | nil => simp at ha
      | cons b bs' =>
        rw [List.find?_cons_of_pos (by exact hnone b)] at ha
        cases ha
        rfl
    · refine h2 ht0 a ?_
      rw [← ha]; congr 1; funext x; exact (hisNone x).symm
  · have ht0 : mk.targets ≠ [] := by
      intro h0
      by_cases he : active = []
      · rw [if_pos he, hnil.2 h0] at hnames
        exact hne hnames
      · obtain ⟨a, ha⟩ := List.exists_mem_of_ne_nil _ he
        apply hact a ha
        rw [← ht, keyed_target hkeyed, h0]; rfl
    obtain ⟨g1, g2⟩ := h3 ht0 (fun a ha h => hact a ha ((hsame.none a).2 h)) names (by rw [hhead]; exact hnames)
    constructor
    · intro hc
      obtain ⟨x, e1, e2⟩ := g1 (hsame.cyclic hc)
      exact ⟨x, e1, TransGen.mono (fun _ _ => hsame.symm.leads) _ _ e2⟩
    · intro hc
      obtain ⟨t, ids, e1, e0, _, e2, e3, _⟩ := g2 (fun h => hc (hsame.symm.cyclic h))
      refine ⟨t, ids, e1, hsame.symm.ready e2, fun n d there hn ht hc => ?_, ?_⟩
      · rw [e0 n d (hsame.named hn) ht hc]; rfl
      have e4 := congrArg (List.map fun o : Option Described => o.map (·.name)) e3
      simp only [List.map_map] at e4
      have e5 : (ids.map fun k => (t.table.targets[k]?).map fun e => e.2.name) =
          ids.map ((fun o : Option Described => o.map (·.name)) ∘ fun k => (t.table.targets[k]?).map fun e => describe e.2) := by
        apply List.map_congr_left
        intro k _
        simp only [Function.comp, Option.map_map]
        rfl
      rw [e5, e4]
      apply List.map_congr_left
      intro a _
      simp only [Function.comp]
      rcases hsame a with ⟨k1, k2⟩ | ⟨d1, d', k1, k2, k3, _⟩
      · rw [k1, k2]
      · rw [k1, k2]; simp [k3]

/-- The same for any table of targets, with or without `.SYNC`: `tableSays` is what C23 and C26 describe. -/
theorem C70_setup_sync {n : Nat} {bs : List Block} {mk : Mk} (hr : addBlocks n {} bs = .ok mk) (hn : ∀ b ∈ bs, ∀ t ∈ b.targets, '/' ∉ t)
    (order : List (Str × List Str)) (hdeps : ∀ n d, tableSays (applySync mk order) n = some d → ∀ x ∈ d.deps, '/' ∉ x ∧ ¬ Enclosed x)
    (hne : mk.targets ≠ []) (rules : List Rule) (hd : Defined rules) (suffixes keys active : List Str) (hk : HashOrder rules keys) :
    (∀ a, (active.find? fun a => (tableSays (applySync mk order) a).isNone) = some a →
      setup rules suffixes order keys active mk = .error (.noTarget a)) ∧
    ((∀ a ∈ active, tableSays (applySync mk order) a ≠ none) → ∀ names,
      names = (if active = [] then ((mk.first.bind (find mk.targets)).map (·.name)).toList else active) →
      (Cyclic (tableSays (applySync mk order)) names →
        ∃ x, setup rules suffixes order keys active mk = .error (.cycle x) ∧ TransGen (Leads (tableSays (applySync mk order))) x x) ∧
      (¬ Cyclic (tableSays (applySync mk order)) names → ∃ t ids, setup rules suffixes order keys active mk = .ok (t, ids) ∧
        Ready (tableSays (applySync mk order)) (Candidate rules suffixes) names t.target t.candidates ∧
        ids.map (fun k => (t.table.targets[k]?).map fun e => describe e.2) = names.map (tableSays (applySync mk order)) ∧ ids ≠ [])) := by
  have hkeyed : Keyed mk := addBlocks_keyed _ keyed_empty hn hr
  obtain ⟨_, h2, h3⟩ := prepare_spec hkeyed order (said := tableSays (applySync mk order)) (fun _ => rfl) hdeps rules suffixes keys active
  rw [candidate_iff hd hk] at h3
  refine ⟨h2 hne, fun hact names hnames => ⟨(h3 hne hact names hnames).1, fun hc => ?_⟩⟩
  obtain ⟨t, ids, e1, _, _, e2⟩ := (h3 hne hact names hnames).2 hc
  exact ⟨t, ids, e1, e2⟩

/-! A makefile: `App: foo.obj main.obj readme` with a command, `main.obj: main.c` without commands, `other: bar.obj`; rules
`.c.obj` and `.cpp.obj`. -/

namespace SetupCase

def blocks : List Spec.Blocks.Block :=
  [{ targets := [c!"App"], deps := [[.text c!"foo.obj"], [.text c!"main.obj"], [.text c!"readme"]], double := false, cmds := [cmdOf c!"link"] },
   { targets := [c!"Main.obj"], deps := [[.text c!"main.c"]], double := false, cmds := [] },
   { targets := [c!"other"], deps := [[.text c!"bar.obj"]], double := false, cmds := [] }]

theorem occ : ∀ o ∈ occurrences blocks, o.2 ∈ blocks := by decide +kernel

theorem texts : ∀ b ∈ blocks, ∀ d ∈ b.deps, ∃ s, d = [.text s] ∧ magicEscape ∉ s ∧ '/' ∉ s ∧ '"' ∉ s := by
  intro b hb d hd
  simp only [blocks, List.mem_cons, List.not_mem_nil, or_false] at hb
  rcases hb with rfl | rfl | rfl <;> simp only [List.mem_cons, List.not_mem_nil, or_false] at hd
  · rcases hd with rfl | rfl | rfl <;> exact ⟨_, rfl, by decide, by decide, by decide⟩
  · subst hd; exact ⟨_, rfl, by decide, by decide, by decide⟩
  · subst hd; exact ⟨_, rfl, by decide, by decide, by decide⟩

theorem good : Good magicEscape blocks := by
  refine ⟨by decide +kernel, fun o ho d hd r hr => ?_, fun o ho o' _ _ d hd => ?_⟩
  · obtain ⟨s, rfl, _⟩ := texts o.2 (occ o ho) d hd
    simp at hr
  · obtain ⟨s, rfl, h, _⟩ := texts o.2 (occ o ho) d hd
    exact ⟨h, trivial⟩

theorem notMixed : ¬ Mixed blocks := by
  have : ∀ o ∈ occurrences blocks, o.2.double = false := by decide +kernel
  rintro ⟨o, ho, o', ho', _, h⟩
  exact h (by rw [this o ho, this o' ho'])

theorem noSync : ∀ b ∈ blocks, ∀ d ∈ b.deps, render '$' d ≠ c!".SYNC" := by decide +kernel

theorem plain : ∀ n d, described blocks n = some d → ∀ x ∈ d.deps, '/' ∉ x ∧ ¬ Enclosed x := by
  intro n d h x hx
  unfold described at h
  cases hds : Spec.Blocks.descriptions blocks n with
  | nil => rw [hds] at h; cases h
  | cons o os =>
    rw [hds] at h
    cases h
    simp only [List.mem_flatMap, List.mem_map, Spec.Blocks.dependents, List.mem_filter] at hx
    obtain ⟨o', ho', e, ⟨he, _⟩, rfl⟩ := hx
    rw [← hds] at ho'
    obtain ⟨s, rfl, _, h1, h2⟩ := texts o'.2 (occ o' (List.mem_filter.1 ho').1) e he
    simp only [Spec.FileMacro.meaning, List.append_nil]
    exact ⟨h1, Spec.Blocks.not_enclosed h2⟩

def rules : List Rule := [exRule c!".obj" c!"cl", { exRule c!".obj" c!"cl /EHsc" with fromExt := c!".cpp" }]

theorem defined : Defined rules := by constructor <;> decide +kernel

theorem hash : HashOrder rules [c!".obj"] := by
  refine ⟨by decide +kernel, fun k => ?_⟩
  simp [rules, exRule, eq_comm]

def suffixes : List Str := [c!".cpp", c!".c"]

/-- The table after parsing. -/
def mk : Mk := match addBlocks 1 {} (blocks.map ofSpec) with | .ok mk => mk | .error _ => {}

/-- The result for the default target; `main.obj` comes first in the iteration over sync points. -/
def result : Option (Tab × List Nat) := (setup rules suffixes mk.sync [c!".obj"] [] mk).toOption

/-- The described targets, and `foo.obj`; not `main.c`, `readme` (no rule fits) and `bar.obj` (not needed). `Main.obj` and `foo.obj` have two
candidates. The first target is built. -/
example : result.map (fun r => (r.1.table.targets.map (·.2.name), (r.1.candidates c!"foo.obj").length,
      (r.1.candidates c!"main.obj").length, (r.1.candidates c!"app").length, r.2)) =
    some ([c!"App", c!"Main.obj", c!"other", c!"foo.obj"], 2, 2, 0, [0]) := by decide +kernel

/-- An unknown target is reported. -/
example : setup rules suffixes mk.sync [c!".obj"] [c!"other", c!"foo.obj"] mk = .error (.noTarget c!"foo.obj") := by decide +kernel

/-- A case of the theorem. -/
example := C70_setup blocks good notMixed noSync plain rules defined suffixes [c!"OTHER", c!"app"]

/-- A cycle is reported, but only if it can be reached. -/
example : (match addBlocks 1 {} [⟨[c!"a"], [c!"b"], false, []⟩, ⟨[c!"b"], [c!"C"], false, []⟩, ⟨[c!"c"], [c!"B"], false, []⟩, ⟨[c!"d"], [], false, []⟩] with
    | .ok mk => some (setup [] [] mk.sync [] [] mk, (setup [] [] mk.sync [] [c!"d"] mk).toOption.map (·.2))
    | .error _ => none) = some (.error (.cycle c!"b"), some [3]) := by decide +kernel

end SetupCase

end Jom.Props

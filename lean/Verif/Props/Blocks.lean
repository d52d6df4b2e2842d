/-
C23: description blocks accumulate. C26: `.SYNC`.
-/
import Verif.Proofs.Sync
import Verif.Props.Graph
import Verif.Props.Scheduler

namespace Jom.Props

open Jom.Blocks
open Jom.Spec.Blocks (canon Described described Mixed Good occurrences)
open Jom.Spec.FileMacro (Piece)
open Inference (Command)

/-! ### C23 -/

theorem refs_bound (bs : List Spec.Blocks.Block) : ∃ N, 0 < N ∧ ∀ o ∈ occurrences bs, ∀ d ∈ o.2.deps, FileMacro.refs d < N := by
  have hl : ∀ l : List (List Piece), ∃ N, ∀ d ∈ l, FileMacro.refs d < N := by
    intro l
    induction l with
    | nil => exact ⟨0, by simp⟩
    | cons d l ih =>
      obtain ⟨N, h⟩ := ih
      refine ⟨N + FileMacro.refs d + 1, fun d' hd => ?_⟩
      rcases List.mem_cons.1 hd with rfl | hd
      · omega
      · have := h d' hd; omega
  obtain ⟨N, h⟩ := hl ((occurrences bs).flatMap fun o => o.2.deps)
  refine ⟨N + 1, by omega, fun o ho d hd => ?_⟩
  have := h d (List.mem_flatMap.2 ⟨o, ho, hd⟩)
  omega

/-- C23: after parsing any blocks, a name denotes a target if and only if some block describes it under a name that differs only in
letter case and slashes. The target has the dependents of all its descriptions, in their order, with the macros expanded for its
name; the commands of all descriptions (`::`) or those of the first description that has commands (`:`). The default target is
the one described first. If some target is described with `:` and `::`, parsing fails. (`n` bounds the rounds of the macro
expansion loop.) -/
theorem C23_accumulate (bs : List Spec.Blocks.Block) (hg : Good magicEscape bs) :
    ∃ N, ∀ n ≥ N,
      (Mixed bs → addBlocks n {} (bs.map ofSpec) = .error .mixed) ∧
      (¬ Mixed bs → ∃ mk, addBlocks n {} (bs.map ofSpec) = .ok mk ∧
        (∀ name, (mk.target name).map (fun b => { name := b.name, deps := b.deps, cmds := b.cmds : Described }) = described bs name) ∧
        (mk.first.bind mk.target).map (·.name) = (occurrences bs).head?.map (·.1)) := by
  obtain ⟨N, hN0, hN⟩ := refs_bound bs
  refine ⟨N, fun n hn => ?_⟩
  have hcan : ∀ o ∈ occurrences bs, canon o.1 = toLower o.1 := fun o ho => canon_native (hg.native o ho)
  have hgo : GoodO n ([] ++ occurrences bs) := by
    rw [List.nil_append]
    refine ⟨hg.native, hg.kinds, fun o ho o' ho' e => ?_, by omega, fun o ho d hd => ?_⟩
    · exact hg.fine o ho o' ho' (by rw [hcan o ho, hcan o' ho', e])
    · have := hN o ho d hd; omega
  have hmix : Mixed bs ↔ MixedO ([] ++ occurrences bs) := by
    rw [List.nil_append]
    constructor
    · rintro ⟨o, ho, o', ho', e, h⟩; exact ⟨o, ho, o', ho', by rw [← hcan o ho, ← hcan o' ho', e], h⟩
    · rintro ⟨o, ho, o', ho', e, h⟩; exact ⟨o, ho, o', ho', by rw [hcan o ho, hcan o' ho', e], h⟩
  have h := addBlocks_out bs [] {} ⟨fun k => by simp [withKey, expected, find], rfl⟩ (by rintro ⟨o, ho, _⟩; simp at ho) hgo
  rw [hmix]
  refine ⟨h.1, fun hm => ?_⟩
  obtain ⟨mk, hr, hrep⟩ := h.2 hm
  rw [List.nil_append] at hrep
  have hns := hrep.noSlash hg.native
  have hd : ∀ name, (mk.target name).map (fun b => { name := b.name, deps := b.deps, cmds := b.cmds : Described }) = described bs name := by
    intro name
    rw [target_eq mk name hns, hrep.targets]
    have hw : withKey (occurrences bs) (canon name) = Spec.Blocks.descriptions bs name := by
      simp only [withKey, Spec.Blocks.descriptions]
      apply List.filter_congr
      intro o ho
      rw [hcan o ho]
    rw [hw]
    simp only [described]
    cases Spec.Blocks.descriptions bs name with
    | nil => rfl
    | cons o ds => rfl
  refine ⟨mk, hr, hd, ?_⟩
  rw [hrep.first]
  cases ho : occurrences bs with
  | nil => rfl
  | cons o os =>
    simp only [List.head?_cons, Option.map_some, Option.bind_some]
    have h1 : (mk.target (toLower o.1)).map (·.name) = (described bs o.1).map (·.name) := by
      have hc : canon (toLower o.1) = canon o.1 := by
        have hn : '/' ∉ o.1 := hg.native o (by rw [ho]; simp)
        have : '/' ∉ toLower o.1 := fun hx => hn (toLower_slash.1 hx)
        rw [canon_native hn, canon_native this]
        simp only [toLower, List.map_map]
        apply List.map_congr_left
        intro c _
        exact toLowerC_idem c
      rw [target_eq mk _ hns, hc, ← target_eq mk _ hns, ← hd]
      simp [Option.map_map]
      rfl
    rw [h1]
    have h2 : Spec.Blocks.descriptions bs o.1 = o :: os.filter fun o' => canon o'.1 = canon o.1 := by
      simp [Spec.Blocks.descriptions, ho]
    simp [described, h2]

/-- Blocks for a case of `C23_accumulate`. -/
def cmdOf (s : Str) : Command := { cmd := { line := s } }

/-- `A\\x y: b $$@.c` with a command, `a\\X: .SYNC d` with another command, `z:: e` and `Z:: f` with commands each. -/
def exBlocks : List Spec.Blocks.Block :=
  [{ targets := [c!"A\\x", c!"y"], deps := [[.text c!"b"], [.ref (.bare .target), .text c!".c"]], double := false, cmds := [cmdOf c!"one"] },
   { targets := [c!"a\\X", c!".NOTPARALLEL"], deps := [[.text c!".SYNC"], [.text c!"d"]], double := false, cmds := [cmdOf c!"two"] },
   { targets := [c!"z"], deps := [[.text c!"e"]], double := true, cmds := [cmdOf c!"three"] },
   { targets := [c!"Z"], deps := [[.text c!"f"]], double := true, cmds := [cmdOf c!"four"] }]

/-- All names of `exBlocks` are spelled without `/`, and its macros are expanded as they should. -/
theorem exBlocks_good : Good magicEscape exBlocks := by
  have hfine : ∀ b ∈ exBlocks, ∀ d ∈ b.deps, ∀ nm ∈ [c!"A\\x", c!"y", c!"a\\X", c!"z", c!"Z"], Spec.FileMacro.Fine magicEscape (Spec.Blocks.named nm) none [] d := by
    intro b hb d hd nm hn
    simp only [exBlocks, List.mem_cons, List.not_mem_nil, or_false] at hb
    have h1 : magicEscape ∉ nm := by
      simp only [List.mem_cons, List.not_mem_nil, or_false] at hn
      rcases hn with rfl | rfl | rfl | rfl | rfl <;> decide
    have h2 : nm ≠ [] ∧ ' ' ∉ nm ∧ '\t' ∉ nm := by
      simp only [List.mem_cons, List.not_mem_nil, or_false] at hn
      rcases hn with rfl | rfl | rfl | rfl | rfl <;> decide
    rcases hb with rfl | rfl | rfl | rfl <;> simp only [List.mem_cons, List.not_mem_nil, or_false] at hd
    · rcases hd with rfl | rfl
      · exact ⟨by decide, trivial⟩
      · refine ⟨by simp, trivial, ?_, by simp, by simp, by simp, ?_, by decide, trivial⟩
        all_goals simp [Spec.FileMacro.Ref.meaning, Spec.FileMacro.Ref.values, Spec.FileMacro.Kind.names, Spec.FileMacro.quoted, Spec.Blocks.named,
          List.intercalate, h1, h2, Spec.FileMacro.render]
    · rcases hd with rfl | rfl <;> exact ⟨by decide, trivial⟩
    · rcases hd with rfl; exact ⟨by decide, trivial⟩
    · rcases hd with rfl; exact ⟨by decide, trivial⟩
  have hocc : ∀ o ∈ occurrences exBlocks, o.2 ∈ exBlocks ∧ o.1 ∈ [c!"A\\x", c!"y", c!"a\\X", c!"z", c!"Z"] := by decide +kernel
  refine ⟨by decide +kernel, ?_, fun o ho o' ho' _ d hd => hfine o.2 (hocc o ho).1 d hd o'.1 (hocc o' ho').2⟩
  intro o ho d hd r hr
  have h := (hocc o ho).1
  simp only [exBlocks, List.mem_cons, List.not_mem_nil, or_false] at h
  rcases h with h | h | h | h <;> rw [h] at hd <;> simp only [List.mem_cons, List.not_mem_nil, or_false] at hd
  · rcases hd with rfl | rfl
    · simp at hr
    · simp at hr; subst hr; left; rfl
  · rcases hd with rfl | rfl <;> simp at hr
  · subst hd; simp at hr
  · subst hd; simp at hr

example : described exBlocks c!"A/X" = some { name := c!"A\\x", deps := [c!"b", c!"A\\x.c", c!"d"], cmds := [cmdOf c!"one"] } ∧
    described exBlocks c!"Y" = some { name := c!"y", deps := [c!"b", c!"y.c"], cmds := [cmdOf c!"one"] } ∧
    described exBlocks c!"z" = some { name := c!"z", deps := [c!"e", c!"f"], cmds := [cmdOf c!"three", cmdOf c!"four"] } ∧
    described exBlocks c!"d" = none := by
  repeat' apply And.intro
  all_goals decide +kernel

example : (match addBlocks 5 {} (exBlocks.map ofSpec) with
    | .ok mk => (mk.target c!"a/X").map (fun b => (b.name, b.deps, b.cmds)) | .error _ => none) =
    some (c!"A\\x", [c!"b", c!"A\\x.c", c!"d"], [cmdOf c!"one"]) := by decide +kernel

example : addBlocks 5 {} [⟨[c!"a"], [], false, []⟩, ⟨[c!"A"], [], true, []⟩] = .error .mixed := by decide +kernel

/-! ### C26 -/

/-- A dependents line: groups separated by `.SYNC`. -/
def syncLine (groups : List (List Str)) : List Str := [c!".SYNC"].intercalate groups

/-- Every dependent in the makefile is a target. -/
def AllTargets (bs : List Block) (mk : Mk) : Prop := ∀ b ∈ bs, ∀ d ∈ b.deps, d ≠ c!".SYNC" → mk.target d ≠ none

instance (bs : List Block) (mk : Mk) : Decidable (AllTargets bs mk) := by unfold AllTargets; infer_instance

/-- In every run of the scheduler, `x` is finished before `y` starts; `mk` is the table of targets after parsing. Inference rules may
add further dependents. -/
def FinishedBefore (mk : Mk) (x y : Str) : Prop :=
  ∀ (dirPath : Str) (cfg : Sched.Cfg) (b tx ty : Nat),
    (∀ t c, Needs (mk.makefile dirPath) t c → Graph.Dep.node c ∈ cfg.deps b t) → (cfg.keepGoing = true → Sched.Ac cfg) →
    Denotes (mk.makefile dirPath) x tx → Denotes (mk.makefile dirPath) y ty →
    ∀ s, Sched.Reachable cfg s → ∀ before after, s.log = before ++ Sched.Ev.started b ty :: after →
      Sched.Ev.succeeded b tx ∈ before ∨ Sched.Ev.upToDate b tx ∈ before ∨ Sched.Ev.noCommands b tx ∈ before

/-- C26 as stated: whatever the blocks and the order in which the sync points are visited, what stands left of a `.SYNC` is finished
before anything between it and the next `.SYNC` starts. -/
def C26_claim : Prop :=
  ∀ (n : Nat) (bs : List Block) (mk : Mk), addBlocks n {} bs = .ok mk → ∀ order, order.Perm mk.sync →
    ∀ b ∈ bs, ∀ groups, b.deps = syncLine groups → (∀ g ∈ groups, c!".SYNC" ∉ g) →
      ∀ (i j : Nat) (gi gj : List Str), i < j → groups[i]? = some gi → groups[j]? = some gj → ∀ x ∈ gi, ∀ y ∈ gj,
        FinishedBefore (applySync mk order) x y

theorem allTargets_keys {n : Nat} {bs : List Block} {mk : Mk} (h : addBlocks n {} bs = .ok mk) (ha : AllTargets bs mk) (order : List (Str × List Str))
    (hp : order.Perm mk.sync) : ∀ e ∈ order, mk.key e.1 ≠ none := by
  intro e he hk
  have h1 := hp.mem_iff.1 he
  rw [addBlocks_sync bs h] at h1
  rcases record_keys _ _ e h1 with h2 | h2
  · obtain ⟨a, h3, h4⟩ := List.mem_map.1 h2
    obtain ⟨b, hb, h5⟩ := List.mem_flatMap.1 h3
    obtain ⟨h6, h7⟩ := adds_keys _ _ _ a h5
    refine ha b hb a.1 h6 h7 ?_
    rw [h4, Mk.target, hk]; rfl
  · exact absurd h2 (by simp)

/-- Everything left of a `.SYNC` becomes a dependent of everything between it and the next one. -/
theorem C26_edge_partial (n : Nat) (bs : List Block) (mk : Mk) (h : addBlocks n {} bs = .ok mk) (ha : AllTargets bs mk)
    (order : List (Str × List Str)) (hp : order.Perm mk.sync) (b : Block) (hb : b ∈ bs) (groups : List (List Str)) (hd : b.deps = syncLine groups)
    (hs : ∀ g ∈ groups, c!".SYNC" ∉ g) (i : Nat) (g g' : List Str) (hi : groups[i]? = some g) (hj : groups[i + 1]? = some g')
    (x y : Str) (hx : x ∈ g) (hy : y ∈ g') : ∃ t, (applySync mk order).target y = some t ∧ x ∈ t.deps := by
  have hkeys := allTargets_keys h ha order hp
  obtain ⟨h1, h2⟩ := applySync_mem order mk hkeys
  have hmem : (y, g) ∈ bs.flatMap fun b => adds [] [] b.deps := by
    refine List.mem_flatMap.2 ⟨b, hb, ?_⟩
    rw [hd, syncLine]
    show (y, g) ∈ adds [] [] ([syncName].intercalate groups)
    rw [adds_groups groups [] hs]
    exact groupAdds_next groups [] i g g' hi hj y hy
  have hrec := record_mem x y _ ({} : Mk).sync g hmem hx
  rw [← addBlocks_sync bs h] at hrec
  cases hf : find mk.sync y with
  | none => rw [hf] at hrec; simp at hrec
  | some l =>
    rw [hf] at hrec
    have he : (y, l) ∈ order := hp.mem_iff.2 (find_mem hf)
    cases hk : mk.key y with
    | none => exact absurd hk (hkeys _ he)
    | some key =>
      obtain ⟨t, ht⟩ := key_some hk
      obtain ⟨t', e1, _, _, e4⟩ := h2 key t ht
      exact ⟨t', target_of_key (by rw [h1, hk]) e1, (e4 x).2 (Or.inr ⟨(y, l), he, hk, hrec⟩)⟩

/-- Nothing else becomes a dependent, and names and commands stay as they are. -/
theorem C26_only_partial (n : Nat) (bs : List Block) (mk : Mk) (h : addBlocks n {} bs = .ok mk) (ha : AllTargets bs mk)
    (order : List (Str × List Str)) (hp : order.Perm mk.sync)
    (hg : ∀ b ∈ bs, ∃ groups, b.deps = syncLine groups ∧ ∀ g ∈ groups, c!".SYNC" ∉ g) (name : Str) (t : DBlock)
    (ht : mk.target name = some t) : ∃ t', (applySync mk order).target name = some t' ∧ t'.name = t.name ∧ t'.cmds = t.cmds ∧
      ∀ x, x ∈ t'.deps → x ∈ t.deps ∨ ∃ b ∈ bs, ∃ groups, b.deps = syncLine groups ∧ ∃ (i : Nat) (g g' : List Str), groups[i]? = some g ∧
        groups[i + 1]? = some g' ∧ x ∈ g ∧ ∃ y ∈ g', mk.target y = some t := by
  have hkeys := allTargets_keys h ha order hp
  obtain ⟨h1, h2⟩ := applySync_mem order mk hkeys
  obtain ⟨key, hk, hf⟩ := key_of_target ht
  obtain ⟨t', e1, e2, e3, e4⟩ := h2 key t hf
  refine ⟨t', target_of_key (by rw [h1, hk]) e1, e2, e3, fun x hx => ?_⟩
  rcases (e4 x).1 hx with hx | ⟨e, he, hek, hx⟩
  · exact Or.inl hx
  · right
    have hm := hp.mem_iff.1 he
    have horig : ∃ l, (e.1, l) ∈ bs.flatMap (fun b => adds [] [] b.deps) ∧ x ∈ l := by
      have hfe : x ∈ (find mk.sync e.1).getD [] := by
        rw [find_of_mem (record_nodup bs h) hm]; exact hx
      rw [addBlocks_sync bs h] at hfe
      rcases record_origin x e.1 _ _ hfe with h0 | h0
      · exact absurd h0 (by simp [find])
      · exact h0
    obtain ⟨l, hl, hxl⟩ := horig
    obtain ⟨b, hb, hl⟩ := List.mem_flatMap.1 hl
    obtain ⟨groups, hd, hs⟩ := hg b hb
    rw [hd, syncLine] at hl
    replace hl : (e.1, l) ∈ adds [] [] ([syncName].intercalate groups) := hl
    rw [adds_groups groups [] hs] at hl
    rcases groupAdds_origin groups [] e.1 l hl with ⟨rfl, _⟩ | ⟨i, g', h3, h4, h5⟩
    · simp at hxl
    · exact ⟨b, hb, groups, hd, i, l, g', h3, h4, hxl, e.1, h5, target_of_key hek hf⟩

/-- Numbers of targets. -/
theorem number_of_key {mk : Mk} {name key : Str} (dirPath : Str) (h : mk.key name = some key) : ∃ j, (mk.makefile dirPath).target name = some j := by
  cases hj : (mk.makefile dirPath).target name with
  | some j => exact ⟨j, rfl⟩
  | none => rw [((makefile_target mk dirPath name).1).1 hj] at h; cases h

/-- C26 for makefiles all of whose dependents are targets, if no group between the two is empty: the order holds in all runs. Missing: dependents
that are not targets and empty groups, see the refutations below. -/
theorem C26_order_partial (n : Nat) (bs : List Block) (mk : Mk) (h : addBlocks n {} bs = .ok mk) (ha : AllTargets bs mk)
    (order : List (Str × List Str)) (hp : order.Perm mk.sync) (b : Block) (hb : b ∈ bs) (groups : List (List Str)) (hd : b.deps = syncLine groups)
    (hs : ∀ g ∈ groups, c!".SYNC" ∉ g) (i j : Nat) (gi gj : List Str) (hij : i < j) (hi : groups[i]? = some gi) (hj : groups[j]? = some gj)
    (hne : ∀ k, i < k → k < j → groups[k]? ≠ some []) (x y : Str) (hx : x ∈ gi) (hy : y ∈ gj) :
    FinishedBefore (applySync mk order) x y := by
  intro dirPath cfg bn tx ty hdeps hac htx hty s hreach before after hlog
  rw [denotes_iff] at htx hty
  refine C30_dependents_first cfg s hreach (fun e => (hac e).to _) before after bn ty hlog tx ?_
  have hedge : ∀ (k : Nat) (g g' : List Str), groups[k]? = some g → groups[k + 1]? = some g' → ∀ x ∈ g, ∀ y ∈ g', ∀ tx ty,
      ((applySync mk order).makefile dirPath).target x = some tx → ((applySync mk order).makefile dirPath).target y = some ty →
      Jom.Spec.DependsOn (cfg.deps bn) ty tx := by
    intro k g g' hk hk' x hx y hy tx ty htx hty
    obtain ⟨t, ht, hxt⟩ := C26_edge_partial n bs mk h ha order hp b hb groups hd hs k g g' hk hk' x y hx hy
    obtain ⟨key, b', h1, h2, h3⟩ := (makefile_target (applySync mk order) dirPath y).2 ty hty
    have h4 := target_of_key h1 h2
    rw [ht] at h4
    cases h4
    refine hdeps ty _ ?_
    exact ⟨x, by rw [h3]; exact hxt, .inl (denotes_iff.2 htx)⟩
  have hall : ∀ (k : Nat) (g : List Str), groups[k]? = some g → ∀ z ∈ g, ∃ tz, ((applySync mk order).makefile dirPath).target z = some tz := by
    intro k g hk z hz
    have hg := List.mem_of_getElem? hk
    have hzb : z ∈ b.deps := by
      rw [hd, syncLine]
      exact mem_intercalate hg hz
    have hzt := ha b hb z hzb (fun e => hs g hg (e ▸ hz))
    have hkey : mk.key z ≠ none := fun e => hzt (by rw [Mk.target, e]; rfl)
    cases hkz : mk.key z with
    | none => exact absurd hkz hkey
    | some key =>
      have h1 := (applySync_mem order mk (allTargets_keys h ha order hp)).1 z
      rw [hkz] at h1
      exact number_of_key dirPath h1
  obtain ⟨m, rfl⟩ : ∃ m, j = i + m + 1 := ⟨j - i - 1, by omega⟩
  clear hlog hreach hij
  induction m generalizing gj y ty with
  | zero => exact Relation.TransGen.single (hedge i gi gj hi hj x hx y hy tx ty htx hty)
  | succ m ih =>
    cases hm : groups[i + m + 1]? with
    | none =>
      have := List.getElem?_eq_none_iff.1 hm
      rw [List.getElem?_eq_none_iff.2 (by omega)] at hj
      cases hj
    | some g =>
      cases g with
      | nil => exact absurd hm (hne _ (by omega) (by omega))
      | cons z g =>
        obtain ⟨tz, htz⟩ := hall _ _ hm z (by simp)
        have h1 := ih (z :: g) z (by simp) tz htz hm (fun k h1 h2 => hne k h1 (by omega))
        exact Relation.TransGen.head (hedge _ _ _ hm hj z (by simp) y hy tz ty htz hty) h1

/-- The scheduler for a table of targets, `-j2`, one request for the first target, every other file exists. -/
def syncCfg (mk : Mk) : Sched.Cfg :=
  { jobs := 2, keepGoing := false, buildAll := false, dumpGraph := false, targets := [0], deps := fun _ => (mk.makefile c!"d").graphDeps fun _ => true,
    fuel := 10 }

/-- Two targets are started before one of them ends. -/
def syncRun : List Sched.Event := [.startProcesses exO, .startProcesses exO, .grant, .acquired .running false]

/-- What makes the order fail: `1` and `2` are running. -/
theorem not_finishedBefore (mk : Mk) (x y : Str) (hx : (mk.makefile c!"d").target x = some 1) (hy : (mk.makefile c!"d").target y = some 2)
    (hr : (Sched.run (syncCfg mk) (Sched.init (syncCfg mk)) syncRun).map (·.log) = some [.started 0 1, .started 0 2]) : ¬ FinishedBefore mk x y := by
  intro h
  obtain ⟨s, h1, h2⟩ := Option.map_eq_some_iff.1 hr
  have := h c!"d" (syncCfg mk) 0 1 2 (fun t c hc => by rw [← dependsOn_needs _ fun _ => true] at hc; exact hc) (by simp [syncCfg])
    (denotes_iff.2 hx) (denotes_iff.2 hy) s ⟨_, h1⟩ [.started 0 1] [] h2
  simp at this

/-- `all: a f .SYNC b`, `a:`, `b:`; `f` is a file. -/
def fileBlocks : List Block :=
  [⟨[c!"all"], [c!"a", c!"f", c!".SYNC", c!"b"], false, []⟩, ⟨[c!"a"], [], false, []⟩, ⟨[c!"b"], [], false, []⟩]

/-- The table of targets after parsing `fileBlocks`. -/
def fileMk : Mk := match addBlocks 5 {} fileBlocks with
  | .ok mk => mk
  | .error _ => {}

/-- C26 fails: if one dependent anywhere is not a target (here a plain file), sync points that the hash happens to list behind it are
dropped. -/
theorem C26_file_refuted : ¬ C26_claim := by
  intro h
  have h1 := h 5 fileBlocks fileMk (by decide +kernel) [(c!"f", []), (c!"a", []), (c!"b", [c!"a", c!"f"])] (by decide +kernel)
    ⟨[c!"all"], [c!"a", c!"f", c!".SYNC", c!"b"], false, []⟩ (by decide) [[c!"a", c!"f"], [c!"b"]] (by decide) (by decide)
    0 1 [c!"a", c!"f"] [c!"b"] (by omega) rfl rfl c!"a" (by decide) c!"b" (by decide)
  exact not_finishedBefore _ _ _ (by decide +kernel) (by decide +kernel) (by decide +kernel) h1

/-- The outcome depends on the order of the hash table. -/
theorem C26_hash_order_refuted : ∃ o1 o2, o1.Perm fileMk.sync ∧ o2.Perm fileMk.sync ∧
    (applySync fileMk o1).target c!"b" ≠ (applySync fileMk o2).target c!"b" :=
  ⟨[(c!"f", []), (c!"a", []), (c!"b", [c!"a", c!"f"])], [(c!"a", []), (c!"b", [c!"a", c!"f"]), (c!"f", [])],
    by decide +kernel, by decide +kernel, by decide +kernel⟩

/-- `all: a .SYNC .SYNC b`, `a:`, `b:`. -/
def twiceBlocks : List Block :=
  [⟨[c!"all"], [c!"a", c!".SYNC", c!".SYNC", c!"b"], false, []⟩, ⟨[c!"a"], [], false, []⟩, ⟨[c!"b"], [], false, []⟩]

/-- The table of targets after parsing `twiceBlocks`. -/
def twiceMk : Mk := match addBlocks 5 {} twiceBlocks with
  | .ok mk => mk
  | .error _ => {}

/-- C26 fails even if all dependents are targets: two `.SYNC` in a row are no barrier, whatever the order of the hash table. -/
theorem C26_twice_refuted : addBlocks 5 {} twiceBlocks = .ok twiceMk ∧ AllTargets twiceBlocks twiceMk ∧
    (∀ order, order.Perm twiceMk.sync → applySync twiceMk order = twiceMk) ∧ ¬ FinishedBefore twiceMk c!"a" c!"b" := by
  refine ⟨by decide +kernel, by decide +kernel, ?_, not_finishedBefore _ _ _ (by decide +kernel) (by decide +kernel) (by decide +kernel)⟩
  have hs : twiceMk.sync = [(c!"a", []), (c!"b", [])] := by decide +kernel
  intro order hp
  rw [hs] at hp
  have hl := hp.length_eq
  match order, hl with
  | [e, e'], _ =>
    have h1 := hp.mem_iff.1 (show e ∈ [e, e'] by simp)
    have h2 := hp.mem_iff.1 (show e' ∈ [e, e'] by simp)
    simp only [List.mem_cons, List.not_mem_nil, or_false] at h1 h2
    rcases h1 with rfl | rfl <;> rcases h2 with rfl | rfl <;> decide +kernel

/-- `all: a .SYNC b .SYNC c`, `a:`, `B:`, `c:`: a case of `C26_order_partial`. -/
def goodSync : List Block :=
  [⟨[c!"all"], syncLine [[c!"a"], [c!"b"], [c!"c"]], false, []⟩, ⟨[c!"a"], [], false, []⟩, ⟨[c!"B"], [], false, []⟩, ⟨[c!"c"], [], false, []⟩]

/-- The table of targets after parsing `goodSync`. -/
def goodMk : Mk := match addBlocks 5 {} goodSync with
  | .ok mk => mk
  | .error _ => {}

example : addBlocks 5 {} goodSync = .ok goodMk ∧ AllTargets goodSync goodMk ∧
    ((applySync goodMk goodMk.sync.reverse).target c!"c").map (·.deps) = some [c!"b"] ∧
    ((applySync goodMk goodMk.sync.reverse).target c!"b").map (·.deps) = some [c!"a"] ∧
    ((applySync goodMk goodMk.sync.reverse).makefile c!"d").target c!"C" = some 3 := by
  repeat' apply And.intro
  all_goals decide +kernel

/-- `c` is started only when `a` has been made: the theorem applies. -/
example : FinishedBefore (applySync goodMk goodMk.sync.reverse) c!"a" c!"c" :=
  C26_order_partial 5 goodSync goodMk (by decide +kernel) (by decide +kernel) _ (List.reverse_perm _)
    ⟨[c!"all"], syncLine [[c!"a"], [c!"b"], [c!"c"]], false, []⟩ (by simp [goodSync]) _ rfl (by decide) 0 2 [c!"a"] [c!"c"] (by decide) rfl rfl
    (fun k h1 h2 => by obtain rfl : k = 1 := by omega
                       simp) _ _ (by simp) (by simp)

/-- `all: $$@.a .SYNC b`, `b:`: the text left of `.SYNC` is recorded with its macros. -/
def macroBlocks : List Block :=
  [⟨[c!"all"], [[magicEscape, '@', '.', 'a'], c!".SYNC", c!"b"], false, []⟩, ⟨[c!"all.a"], [], false, []⟩, ⟨[c!"b"], [], false, []⟩]

/-- The table of targets after parsing `macroBlocks`. -/
def macroMk : Mk := match addBlocks 5 {} macroBlocks with
  | .ok mk => mk
  | .error _ => {}

/-- C26 fails for macros in dependents: `all` depends on `all.a`, but `b` waits for a dependent that is neither a target nor a file, which ends
the build. -/
theorem C26_macro_refuted : addBlocks 5 {} macroBlocks = .ok macroMk ∧ (macroMk.target c!"all").map (·.deps) = some [c!"all.a", c!"b"] ∧
    ∃ order, order.Perm macroMk.sync ∧
      Lacks ((applySync macroMk order).makefile c!"d") (fun f => f.all (· ≠ magicEscape)) 2 :=
  ⟨by decide +kernel, by decide +kernel, [(c!"b", [[magicEscape, '@', '.', 'a']]), ([magicEscape, '@', '.', 'a'], [])], by decide +kernel,
    missing_lacks.1 (by decide +kernel)⟩

/-! ### C67 -/

theorem addTargets_notParallel {n : Nat} {deps : List Str} {double : Bool} {cmds : List Command} {ts : List Str} {mk mk' : Mk}
    (h : addTargets n deps double cmds mk ts = .ok mk') :
    mk'.notParallel = true ↔ mk.notParallel = true ∨ c!".NOTPARALLEL" ∈ ts := by
  induction ts generalizing mk with
  | nil => simp [addTargets] at h; simp [h]
  | cons t ts ih =>
    simp only [addTargets, bind, Except.bind] at h
    split at h
    · cases h
    next m hm =>
      rw [ih h, List.mem_cons, ← or_assoc]
      have : m.notParallel = true ↔ mk.notParallel = true ∨ c!".NOTPARALLEL" = t := by
        unfold addTarget at hm
        split at hm
        next ht => injection hm with hm; subst hm; subst ht; simp [notParallelName]
        next ht =>
          have hne : ¬ c!".NOTPARALLEL" = t := fun e => ht e.symm
          simp only [hne, or_false]
          split at hm
          · split at hm
            · injection hm with hm; rw [hm]
            · split at hm
              · cases hm
              · simp only [bind, Except.bind] at hm
                split at hm
                · cases hm
                · injection hm with hm; subst hm; rfl
          · simp only [bind, Except.bind] at hm
            split at hm
            · cases hm
            · injection hm with hm; subst hm; rfl
      rw [this]

/-- C67: parallel execution is disabled exactly if some block describes `.NOTPARALLEL`. -/
theorem C67_flag {n : Nat} {bs : List Block} {mk : Mk} (h : addBlocks n {} bs = .ok mk) :
    mk.notParallel = true ↔ ∃ b ∈ bs, c!".NOTPARALLEL" ∈ b.targets := by
  have key : ∀ (bs : List Block) (m : Mk), addBlocks n m bs = .ok mk →
      (mk.notParallel = true ↔ m.notParallel = true ∨ ∃ b ∈ bs, c!".NOTPARALLEL" ∈ b.targets) := by
    intro bs
    induction bs with
    | nil => intro m h; simp [addBlocks] at h; simp [h]
    | cons b bs ih =>
      intro m h
      simp only [addBlocks, bind, Except.bind] at h
      split at h
      · cases h
      next m' hm =>
        rw [ih m' h, addTargets_notParallel hm]
        simp [or_assoc]
  simpa using key bs {} h

/-- C67: with `.NOTPARALLEL` in the makefile at most one target is being built at any time, whatever `-j` says. -/
theorem C67_one_at_a_time {n : Nat} {bs : List Block} {mk : Mk} (h : addBlocks n {} bs = .ok mk) (hb : ∃ b ∈ bs, c!".NOTPARALLEL" ∈ b.targets)
    (j : Nat) (cfg : Sched.Cfg) (hj : cfg.jobs = jobsOf mk j) (s : Sched.St) (hr : Sched.Reachable cfg s) : running s.log ≤ 1 := by
  have h1 := (C32_job_limit cfg s hr).2.2.1
  rw [hj, jobsOf, if_pos ((C67_flag h).2 hb)] at h1
  exact h1

/-- Without `.NOTPARALLEL` the limit is that of the command line. -/
theorem C67_otherwise {n : Nat} {bs : List Block} {mk : Mk} (h : addBlocks n {} bs = .ok mk) (hb : ∀ b ∈ bs, c!".NOTPARALLEL" ∉ b.targets) (j : Nat) :
    jobsOf mk j = j := by
  rw [jobsOf, if_neg]
  rw [C67_flag h]
  rintro ⟨b, hm, ht⟩
  exact hb b hm ht

/-- `all x .NOTPARALLEL: y` -/
example : (addBlocks 3 {} [{ targets := [c!"all", c!"x", c!".NOTPARALLEL"], deps := [c!"y"], double := false, cmds := [] }]).toOption.map
    (fun mk => (mk.notParallel, jobsOf mk 8, mk.targets.length)) = some (true, 1, 2) := by decide +kernel

/-- The theorem applies to a build with `-j8` in which three targets are independent. -/
example (s : Sched.St) (h : Sched.Reachable (forkCfg 1 false) s) : running s.log ≤ 1 := by
  have e : (addBlocks 3 {} [{ targets := [c!"all", c!".NOTPARALLEL"], deps := [], double := false, cmds := [] }]).toOption.map (fun mk => jobsOf mk 8) =
      some 1 := by decide +kernel
  cases hb : addBlocks 3 {} [{ targets := [c!"all", c!".NOTPARALLEL"], deps := [], double := false, cmds := [] }] with
  | error x => rw [hb] at e; cases e
  | ok mk =>
    rw [hb] at e
    simp only [Except.toOption, Option.map_some, Option.some.injEq] at e
    exact C67_one_at_a_time hb ⟨_, List.mem_cons_self, by simp⟩ 8 _ (by rw [e]; rfl) s h

/-- The name is compared case-sensitively, other than those of targets: `.notparallel:` is an ordinary target. -/
theorem C67_case_refuted : (addBlocks 3 {} [{ targets := [c!".NotParallel"], deps := [], double := false, cmds := [] }]).toOption.map
    (fun mk => (mk.notParallel, jobsOf mk 8, mk.targets.length)) = some (false, 8, 1) := by decide +kernel

end Jom.Props

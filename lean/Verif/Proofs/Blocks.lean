/-
The table of targets agrees with the descriptions (C23).
-/
import Verif.Model.Blocks
import Verif.Spec.Blocks
import Verif.Proofs.FileMacros

namespace Jom.Blocks

open Inference (Command)
open FileMacro (FErr Tgt expandDependents expandText loop macroValues replaceAt refs loop_eq Allowed DepIs)
open Jom.Spec.FileMacro (Piece render meaning Fine)
open Jom.Spec.Blocks (canon named)

/-! ### Tables -/

theorem find_put_same (l : List (Str × α)) (k : Str) (v : α) : find (put l k v) k = some v := by
  induction l with
  | nil => simp [put, find]
  | cons e l ih =>
    obtain ⟨k', v'⟩ := e
    simp only [put]
    split
    · simp [find]
    · rename_i h
      simp only [find, List.find?_cons, h, decide_false]
      exact ih

theorem find_put_other (l : List (Str × α)) {k k' : Str} (v : α) (h : k' ≠ k) : find (put l k v) k' = find l k' := by
  induction l with
  | nil => simp [put, find, Ne.symm h]
  | cons e l ih =>
    obtain ⟨k1, v1⟩ := e
    simp only [put]
    split
    · rename_i h1
      subst h1
      simp [find, Ne.symm h]
    · simp only [find, List.find?_cons]
      by_cases h1 : k1 = k'
      · simp [h1]
      · simp only [h1, decide_false]
        exact ih

theorem find_put (l : List (Str × α)) (k k' : Str) (v : α) : find (put l k v) k' = if k' = k then some v else find l k' := by
  split
  · rename_i h
    rw [h, find_put_same]
  · rename_i h
    rw [find_put_other _ _ h]

/-! ### Names -/

theorem toLowerC_slash (c : Char) : toLowerC c = '/' ↔ c = '/' := by
  unfold toLowerC
  split
  · rename_i h
    constructor
    · intro hc
      have := congrArg Char.toNat hc
      rw [toNat_ofNat_ascii (by omega)] at this
      have h2 : ('/' : Char).toNat = 47 := by decide
      omega
    · intro hc
      subst hc
      have h2 : ('/' : Char).toNat = 47 := by decide
      omega
  · rfl

theorem toLower_slash {s : Str} : '/' ∈ toLower s ↔ '/' ∈ s := by
  simp only [toLower, List.mem_map]
  constructor
  · rintro ⟨c, hc, e⟩
    rw [toLowerC_slash] at e
    exact e ▸ hc
  · intro h
    exact ⟨'/', h, (toLowerC_slash _).2 rfl⟩

theorem map_slash {s : Str} (h : '/' ∉ s) : (s.map fun c => if c = '/' then '\\' else c) = s := by
  induction s with
  | nil => rfl
  | cons c s ih =>
    simp only [List.mem_cons, not_or] at h
    simp [ih h.2, Ne.symm h.1]

theorem canon_native {s : Str} (h : '/' ∉ s) : canon s = toLower s := by
  unfold canon
  exact map_slash (fun hx => h (toLower_slash.1 hx))

theorem canon_noSlash (s : Str) : '/' ∉ canon s := by
  unfold canon
  intro h
  obtain ⟨c, _, e⟩ := List.mem_map.1 h
  split at e
  · exact absurd e (by decide)
  · contradiction

/-- If no key contains `/`, a lookup is a lookup of the normalised name. -/
theorem key_eq (mk : Mk) (name : Str) (h : ∀ k b, find mk.targets k = some b → '/' ∉ k) :
    mk.key name = (find mk.targets (canon name)).map fun _ => canon name := by
  simp only [Mk.key]
  split
  · rename_i b hb
    have h0 := h _ _ hb
    have : canon name = toLower name := by unfold canon; exact map_slash h0
    rw [this, hb]; rfl
  · rfl

theorem target_eq (mk : Mk) (name : Str) (h : ∀ k b, find mk.targets k = some b → '/' ∉ k) :
    mk.target name = find mk.targets (canon name) := by
  simp only [Mk.target, key_eq mk name h]
  cases hf : find mk.targets (canon name) with
  | none => rfl
  | some b => simpa using hf

/-! ### Dependents -/

theorem macroValues_name {t t' : Tgt} (h : t.name = t'.name) (s : Str) : macroValues t none true s = macroValues t' none true s := by
  cases s with
  | nil => rfl
  | cons c s => simp [macroValues, h]

theorem replaceAt_name {t t' : Tgt} (h : t.name = t'.name) (s : Str) (p : Nat) : replaceAt t none true s p = replaceAt t' none true s p := by
  unfold replaceAt
  simp only [macroValues_name h]

theorem loop_name {t t' : Tgt} (h : t.name = t'.name) : ∀ (n : Nat) (s : Str) (i : Nat), loop t none true n s i = loop t' none true n s i := by
  intro n
  induction n with
  | zero => intro s i; rfl
  | succ n ih =>
    intro s i
    simp only [loop, replaceAt_name h, ih]

theorem fine_magic {m : Char} {t : Spec.FileMacro.Target} {d : Option Str} : ∀ (ps : List Piece) (out : Str), Fine m t d out ps → m ∉ meaning t d ps := by
  intro ps
  induction ps with
  | nil => intro _ _; simp [meaning]
  | cons p ps ih =>
    intro out h
    cases p with
    | text s =>
      obtain ⟨h1, h2⟩ := h
      simp only [meaning, List.mem_append, not_or]
      exact ⟨h1, ih _ h2⟩
    | ref r =>
      obtain ⟨_, _, f3, _, _, _, _, f8⟩ := h
      simp only [meaning, List.mem_append, not_or]
      exact ⟨f3, ih _ f8⟩

theorem loop_plain (t : Tgt) (n : Nat) (s : Str) (h : magicEscape ∉ s) : loop t none true (n + 1) s 0 = .ok s := by
  rw [loop]
  have : indexOfFrom? [magicEscape] s 0 = none := by
    unfold indexOfFrom?
    split
    · rw [indexOf?_char_none fun hx => h (List.mem_of_mem_drop hx)]; rfl
    · rfl
  rw [this]

theorem loop_pieces (t : Tgt) (n : Nat) (ps : List Piece) (hk : ∀ r, .ref r ∈ ps → r.kind = .target ∨ r.kind = .stem)
    (hf : Fine magicEscape (named t.name) none [] ps) (hn : refs ps < n) :
    loop t none true n (render magicEscape ps) 0 = .ok (meaning (named t.name) none ps) := by
  rw [loop_name (t := t) (t' := FileMacro.tgt (named t.name)) rfl]
  have := loop_eq (t := named t.name) (dep := none) (d := none) (by simp [DepIs]) true ps [] 0 n
    (fun r hr _ => hk r hr) hf (by simp) (by left; simp) hn
  simpa using this

/-- The dependents of a target with dependents `old` that have been expanded before and new ones. -/
theorem expandDependents_eq (t : Tgt) (n : Nat) (old : List Str) (new : List (List Piece)) (ho : ∀ s ∈ old, magicEscape ∉ s)
    (hk : ∀ d ∈ new, ∀ r, .ref r ∈ d → r.kind = .target ∨ r.kind = .stem) (hf : ∀ d ∈ new, Fine magicEscape (named t.name) none [] d)
    (hn : 0 < n ∧ ∀ d ∈ new, refs d < n) :
    expandDependents t n (old ++ new.map (render magicEscape)) = .ok (old ++ new.map (meaning (named t.name) none)) := by
  obtain ⟨n, rfl⟩ : ∃ k, n = k + 1 := ⟨n - 1, by omega⟩
  induction old with
  | nil =>
    simp only [List.nil_append]
    induction new with
    | nil => rfl
    | cons d ds ih =>
      have h1 := loop_pieces t (n + 1) d (hk d (by simp)) (hf d (by simp)) (hn.2 d (by simp))
      have h2 := ih (fun d hd => hk d (by simp [hd])) (fun d hd => hf d (by simp [hd])) ⟨hn.1, fun d hd => hn.2 d (by simp [hd])⟩
      simp only [List.map_cons, expandDependents, expandText, h1, h2, bind, Except.bind]
  | cons s old ih =>
    have h1 := loop_plain t n s (ho s (by simp))
    have h2 := ih (fun s hs => ho s (by simp [hs]))
    simp only [List.cons_append, expandDependents, expandText, h1, h2, bind, Except.bind]

/-! ### `.SYNC` is removed -/

theorem removeAt_length (a : List α) (x : α) (b : List α) : removeAt (a ++ x :: b) a.length = a ++ b := by
  simp [removeAt, List.drop_append]

theorem syncLoop_deps : ∀ (n : Nat) (a b : List Str) (k : Nat) (sd : List Str) (sp : List (Str × List Str)), b.length < n →
    (syncLoop n (a ++ b) a.length k sd sp).1 = a ++ b.filter (· ≠ syncName) := by
  intro n
  induction n with
  | zero => intro _ _ _ _ _ h; omega
  | succ n ih =>
    intro a b k sd sp h
    cases b with
    | nil => simp [syncLoop]
    | cons d b =>
      have hg : (a ++ d :: b)[a.length]? = some d := by simp
      simp only [syncLoop, hg]
      by_cases hd : d = syncName
      · subst hd
        simp only [if_true, removeAt_length]
        by_cases hb : b = []
        · subst hb; simp
        · have : ¬ (a ++ b).length = a.length := by
            have := List.length_pos_iff.2 hb
            simp; omega
          simp only [this, if_false]
          rw [ih _ _ _ _ _ (by simp at h; omega)]
          simp
      · simp only [hd, if_false]
        have := ih (a ++ [d]) b k sd (put sp d ((find sp d).getD [] ++ sd)) (by simp at h; omega)
        simp only [List.append_assoc, List.singleton_append, List.length_append, List.length_singleton] at this
        rw [this]
        simp [hd]

theorem syncLoop_filter (deps : List Str) (sp : List (Str × List Str)) :
    (syncLoop (deps.length + 1) deps 0 0 [] sp).1 = deps.filter (· ≠ syncName) := by
  have := syncLoop_deps (deps.length + 1) [] deps 0 [] sp (by omega)
  simpa using this

theorem render_mark {m m' : Char} : ∀ (ps : List Piece), m ∉ render m ps → render m' ps = render m ps := by
  intro ps
  induction ps with
  | nil => intro _; rfl
  | cons p ps ih =>
    intro h
    cases p with
    | text s =>
      simp only [render, List.mem_append, not_or] at h ⊢
      rw [ih h.2]
    | ref r => simp [render] at h

theorem sync_mark (ps : List Piece) : render magicEscape ps = syncName ↔ render '$' ps = c!".SYNC" := by
  constructor
  · intro h
    rw [render_mark (m := magicEscape) (m' := '$') ps (by rw [h]; decide), h]; rfl
  · intro h
    rw [render_mark (m := '$') (m' := magicEscape) ps (by rw [h]; decide), h]; rfl

/-! ### Blocks -/

/-- The block as the parser sees it. -/
def ofSpec (b : Spec.Blocks.Block) : Block :=
  { targets := b.targets, deps := b.deps.map (render magicEscape), double := b.double, cmds := b.cmds }

theorem filter_deps (b : Spec.Blocks.Block) :
    (ofSpec b).deps.filter (· ≠ syncName) = (Spec.Blocks.dependents b).map (render magicEscape) := by
  simp only [ofSpec, Spec.Blocks.dependents, List.filter_map]
  congr 1
  apply List.filter_congr
  intro d _
  simp only [Function.comp, ne_eq, decide_not, sync_mark]

/-- Descriptions with a given key. -/
def withKey (occs : List (Str × Spec.Blocks.Block)) (k : Str) : List (Str × Spec.Blocks.Block) := occs.filter fun o => toLower o.1 = k

/-- The entry of a key after some descriptions. -/
def expected (ds : List (Str × Spec.Blocks.Block)) : Option DBlock :=
  match ds with
  | [] => none
  | (n, b) :: _ => some {
      name := n
      deps := ds.flatMap fun o => (Spec.Blocks.dependents o.2).map (meaning (named n) none)
      cmds := if b.double then ds.flatMap fun o => o.2.cmds else ((ds.map fun o => o.2.cmds).find? (· ≠ [])).getD []
      enabled := b.double }

/-- The table agrees with the descriptions so far. -/
structure Rep (occs : List (Str × Spec.Blocks.Block)) (mk : Mk) : Prop where
  targets : ∀ k, find mk.targets k = expected (withKey occs k)
  first : mk.first = occs.head?.map fun o => toLower o.1

/-- Both separators for one target. -/
def MixedO (occs : List (Str × Spec.Blocks.Block)) : Prop :=
  ∃ o ∈ occs, ∃ o' ∈ occs, toLower o.1 = toLower o'.1 ∧ o.2.double ≠ o'.2.double

/-- Requirements on the descriptions; `n` bounds the number of references in a dependent. -/
structure GoodO (n : Nat) (occs : List (Str × Spec.Blocks.Block)) : Prop where
  native : ∀ o ∈ occs, '/' ∉ o.1
  kinds : ∀ o ∈ occs, ∀ d ∈ o.2.deps, ∀ r, .ref r ∈ d → r.kind = .target ∨ r.kind = .stem
  fine : ∀ o ∈ occs, ∀ o' ∈ occs, toLower o.1 = toLower o'.1 → ∀ d ∈ o.2.deps, Fine magicEscape (named o'.1) none [] d
  fuel : 0 < n ∧ ∀ o ∈ occs, ∀ d ∈ o.2.deps, refs d < n

theorem GoodO.sub {n : Nat} {a b : List (Str × Spec.Blocks.Block)} (h : GoodO n b) (hs : ∀ o ∈ a, o ∈ b) : GoodO n a where
  native o ho := h.native o (hs o ho)
  kinds o ho := h.kinds o (hs o ho)
  fine o ho o' ho' := h.fine o (hs o ho) o' (hs o' ho')
  fuel := ⟨h.fuel.1, fun o ho => h.fuel.2 o (hs o ho)⟩

/-- The outcome required after some descriptions. -/
def Out (occs : List (Str × Spec.Blocks.Block)) (r : Except BErr Mk) : Prop :=
  (MixedO occs → r = .error .mixed) ∧ (¬ MixedO occs → ∃ mk, r = .ok mk ∧ Rep occs mk)

theorem Out.bind {occs more : List (Str × Spec.Blocks.Block)} {r : Except BErr Mk} {f : Mk → Except BErr Mk} (h : Out occs r)
    (hf : ∀ mk, ¬ MixedO occs → Rep occs mk → Out (occs ++ more) (f mk)) : Out (occs ++ more) (r >>= f) := by
  by_cases hm : MixedO occs
  · have hm' : MixedO (occs ++ more) := by
      obtain ⟨o, ho, o', ho', h1⟩ := hm
      exact ⟨o, by simp [ho], o', by simp [ho'], h1⟩
    refine ⟨fun _ => ?_, fun h' => absurd hm' h'⟩
    rw [h.1 hm]; rfl
  · obtain ⟨mk, hr, hrep⟩ := h.2 hm
    rw [hr]
    exact hf mk hm hrep

theorem Rep.noSlash {occs : List (Str × Spec.Blocks.Block)} {mk : Mk} (h : Rep occs mk) (hn : ∀ o ∈ occs, '/' ∉ o.1) :
    ∀ k b, find mk.targets k = some b → '/' ∉ k := by
  intro k b hb
  rw [h.targets] at hb
  cases hd : withKey occs k with
  | nil => rw [hd] at hb; simp [expected] at hb
  | cons o ds =>
    have ho : o ∈ withKey occs k := by rw [hd]; simp
    simp only [withKey, List.mem_filter, decide_eq_true_eq] at ho
    rw [← ho.2]
    exact fun hx => hn o ho.1 (toLower_slash.1 hx)

theorem withKey_snoc (occs : List (Str × Spec.Blocks.Block)) (o : Str × Spec.Blocks.Block) (k : Str) :
    withKey (occs ++ [o]) k = withKey occs k ++ if toLower o.1 = k then [o] else [] := by
  simp only [withKey, List.filter_append]
  congr 1
  by_cases h : toLower o.1 = k <;> simp [h]

theorem addCmds_new (b : DBlock) (cmds : List Command) (h : b.cmds = []) (c : Bool) : addCmds b c cmds = { b with cmds := cmds } := by
  unfold addCmds
  split
  · rename_i h1; subst h1; cases b; simp_all
  · cases b; simp_all

/-- One description. -/
theorem addTarget_out {n : Nat} {occs : List (Str × Spec.Blocks.Block)} {mk : Mk} (h : Rep occs mk) (hm : ¬ MixedO occs)
    (t : Str) (b : Spec.Blocks.Block) (ht : t ≠ notParallelName) (hg : GoodO n (occs ++ [(t, b)])) :
    Out (occs ++ [(t, b)]) (addTarget n ((Spec.Blocks.dependents b).map (render magicEscape)) b.double b.cmds mk t) := by
  have hns := h.noSlash (fun o ho => hg.native o (by simp [ho]))
  have htn : '/' ∉ t := hg.native (t, b) (by simp)
  have hdep : ∀ d ∈ Spec.Blocks.dependents b, d ∈ b.deps := fun d hd => (List.mem_filter.1 hd).1
  have hkey : mk.key t = (expected (withKey occs (toLower t))).map fun _ => toLower t := by
    rw [key_eq mk t hns, canon_native htn, h.targets]
  simp only [addTarget, ht, if_false]
  rw [hkey]
  cases hd : withKey occs (toLower t) with
  | nil =>
    simp only [expected, Option.map_none]
    have hno : ∀ o ∈ occs, toLower o.1 ≠ toLower t := by
      intro o ho e
      have : o ∈ withKey occs (toLower t) := by simp [withKey, ho, e]
      rw [hd] at this; simp at this
    have hnm : ¬ MixedO (occs ++ [(t, b)]) := by
      rintro ⟨o, ho, o', ho', e, hne⟩
      simp only [List.mem_append, List.mem_singleton] at ho ho'
      rcases ho with ho | rfl
      · rcases ho' with ho' | rfl
        · exact hm ⟨o, ho, o', ho', e, hne⟩
        · exact hno o ho e
      · rcases ho' with ho' | rfl
        · exact hno o' ho' e.symm
        · exact hne rfl
    refine ⟨fun h' => absurd h' hnm, fun _ => ?_⟩
    have he := expandDependents_eq { name := t, deps := [] ++ (Spec.Blocks.dependents b).map (render magicEscape), time := fun _ => 0 } n []
      (Spec.Blocks.dependents b) (by simp) (fun d hd => hg.kinds (t, b) (by simp) d (hdep d hd))
      (fun d hd => hg.fine (t, b) (by simp) (t, b) (by simp) rfl d (hdep d hd))
      ⟨hg.fuel.1, fun d hd => hg.fuel.2 (t, b) (by simp) d (hdep d hd)⟩
    simp only [addDeps]
    rw [he]
    refine ⟨_, rfl, ?_, ?_⟩
    · intro k
      rw [withKey_snoc]
      rw [addCmds_new _ _ rfl]
      simp only [Mk.append]
      rw [find_put]
      by_cases hk : toLower t = k
      · subst hk
        simp only [if_true, hd, List.nil_append]
        cases hb : b.double <;> cases hc : b.cmds <;> simp [expected, hb, hc]
      · have : ¬ k = toLower t := fun e => hk e.symm
        simp only [hk, this, if_false, List.append_nil]
        exact h.targets k
    · rw [addCmds_new _ _ rfl]
      simp only [Mk.append, h.first]
      cases occs with
      | nil => rfl
      | cons o occs => rfl
  | cons o ds =>
    obtain ⟨n0, b0⟩ := o
    have hex : expected (withKey occs (toLower t)) = expected ((n0, b0) :: ds) := by rw [hd]
    have hfind : find mk.targets (toLower t) = expected ((n0, b0) :: ds) := by rw [h.targets, hd]
    have hsome : ∃ x, expected ((n0, b0) :: ds) = some x := ⟨_, rfl⟩
    have ho0 : (n0, b0) ∈ withKey occs (toLower t) := by rw [hd]; simp
    simp only [withKey, List.mem_filter, decide_eq_true_eq] at ho0
    have hds : ∀ o ∈ (n0, b0) :: ds, o ∈ occs ∧ toLower o.1 = toLower t := by
      intro o ho
      rw [← hd] at ho
      simpa [withKey] using ho
    obtain ⟨x, hx⟩ := hsome
    have hx1 : x.enabled = b0.double := by
      simp only [expected, Option.some.injEq] at hx; rw [← hx]
    simp only [hx, Option.map_some, hfind, hx1]
    have hmix : MixedO (occs ++ [(t, b)]) ↔ b.double ≠ b0.double := by
      constructor
      · rintro ⟨o, ho, o', ho', e, hne⟩ heq
        simp only [List.mem_append, List.mem_singleton] at ho ho'
        rcases ho with ho | rfl
        · rcases ho' with ho' | rfl
          · exact hm ⟨o, ho, o', ho', e, hne⟩
          · exact hm ⟨o, ho, (n0, b0), ho0.1, by rw [e, ho0.2], by rw [← heq]; exact hne⟩
        · rcases ho' with ho' | rfl
          · exact hm ⟨o', ho', (n0, b0), ho0.1, by rw [← e, ho0.2], by rw [← heq]; exact hne.symm⟩
          · exact hne rfl
      · intro hne
        exact ⟨(t, b), by simp, (n0, b0), by simp [ho0.1], ho0.2.symm, hne⟩
    by_cases hdbl : b.double = b0.double
    · have hnm : ¬ MixedO (occs ++ [(t, b)]) := by rw [hmix]; exact fun h' => h' hdbl
      refine ⟨fun h' => absurd h' hnm, fun _ => ?_⟩
      simp only [hdbl, ne_eq, not_true_eq_false, if_false]
      have hxn : x.name = n0 := by simp only [expected, Option.some.injEq] at hx; rw [← hx]
      have hxd : x.deps = ((n0, b0) :: ds).flatMap fun o => (Spec.Blocks.dependents o.2).map (meaning (named n0) none) := by
        simp only [expected, Option.some.injEq] at hx; rw [← hx]
      have hxc : x.cmds = if b0.double then ((n0, b0) :: ds).flatMap fun o => o.2.cmds
          else ((((n0, b0) :: ds).map fun o => o.2.cmds).find? (· ≠ [])).getD [] := by
        simp only [expected, Option.some.injEq] at hx; rw [← hx]
      have he := expandDependents_eq { name := x.name, deps := x.deps ++ (Spec.Blocks.dependents b).map (render magicEscape), time := fun _ => 0 } n
        x.deps (Spec.Blocks.dependents b)
        (by
          intro s hs
          rw [hxd] at hs
          obtain ⟨o, ho, hs⟩ := List.mem_flatMap.1 hs
          obtain ⟨d, hd', rfl⟩ := List.mem_map.1 hs
          obtain ⟨ho1, ho2⟩ := hds o ho
          exact fine_magic _ _ (hg.fine o (by simp [ho1]) (n0, b0) (by simp [ho0.1]) (by rw [ho2, ho0.2]) d (List.mem_filter.1 hd').1))
        (fun d hd => hg.kinds (t, b) (by simp) d (hdep d hd))
        (fun d hd => by
          simp only [hxn]
          exact hg.fine (t, b) (by simp) (n0, b0) (by simp [ho0.1]) ho0.2.symm d (hdep d hd))
        ⟨hg.fuel.1, fun d hd => hg.fuel.2 (t, b) (by simp) d (hdep d hd)⟩
      simp only [addDeps]
      rw [he]
      refine ⟨_, rfl, ?_, ?_⟩
      · intro k
        rw [withKey_snoc]
        simp only
        rw [find_put]
        by_cases hk : toLower t = k
        · subst hk
          simp only [if_true, hd, List.cons_append]
          simp only [expected, Option.some.injEq]
          have hfl : ∀ (g : Str × Spec.Blocks.Block → List Str), ((n0, b0) :: (ds ++ [(t, b)])).flatMap g = ((n0, b0) :: ds).flatMap g ++ g (t, b) := by
            intro g; simp [List.flatMap_append]
          unfold addCmds
          by_cases hc : b.cmds = []
          · simp only [hc, if_true]
            congr 1
            · rw [hfl, hxd, hxn]
            · rw [hxc]
              cases hb : b0.double
              · simp only [Bool.false_eq_true, if_false]
                rw [← List.cons_append, List.map_append, List.find?_append]
                simp [hc]
              · simp [hc, List.flatMap_append]
          · simp only [hc, if_false]
            cases hb : b0.double
            · simp only [Bool.false_eq_true, false_or, if_false]
              rw [hb] at hxc hx1
              simp only [Bool.false_eq_true, if_false] at hxc
              by_cases hxe : x.cmds = []
              · simp only [hxe, if_true, List.nil_append]
                congr 1
                · rw [hfl, hxd, hxn]
                · rw [hxe] at hxc
                  rw [← List.cons_append, List.map_append, List.find?_append]
                  have hnone : (((n0, b0) :: ds).map fun o => o.2.cmds).find? (· ≠ []) = none := by
                    cases hf : (((n0, b0) :: ds).map fun o => o.2.cmds).find? (· ≠ []) with
                    | none => rfl
                    | some c =>
                      rw [hf] at hxc
                      have := List.find?_some hf
                      simp only [Option.getD_some] at hxc
                      subst hxc
                      simp at this
                  rw [hnone]
                  simp [hc]
              · simp only [hxe, if_false]
                congr 1
                · rw [hfl, hxd, hxn]
                · rw [← List.cons_append, List.map_append, List.find?_append]
                  cases hf : (((n0, b0) :: ds).map fun o => o.2.cmds).find? (· ≠ []) with
                  | none => rw [hf] at hxc; exact absurd hxc hxe
                  | some c => rw [hf] at hxc; simpa using hxc
            · rw [hb] at hxc hx1
              simp only [true_or, if_true]
              congr 1
              · rw [hfl, hxd, hxn]
              · rw [hxc]
                simp [List.flatMap_append]
        · have : ¬ k = toLower t := fun e => hk e.symm
          simp only [hk, this, if_false, List.append_nil]
          exact h.targets k
      · simp only [h.first]
        cases occs with
        | nil => simp at ho0
        | cons o occs => rfl
    · refine ⟨fun _ => ?_, fun h' => absurd (hmix.2 hdbl) h'⟩
      simp [hdbl]

/-- The targets of one block. -/
theorem addTargets_out {n : Nat} (b : Spec.Blocks.Block) : ∀ (ts : List Str) (occs : List (Str × Spec.Blocks.Block)) (mk : Mk), Rep occs mk →
    ¬ MixedO occs → GoodO n (occs ++ (ts.filter (· ≠ notParallelName)).map fun t => (t, b)) →
    Out (occs ++ (ts.filter (· ≠ notParallelName)).map fun t => (t, b))
      (addTargets n ((Spec.Blocks.dependents b).map (render magicEscape)) b.double b.cmds mk ts) := by
  intro ts
  induction ts with
  | nil =>
    intro occs mk h hm _
    simp only [List.filter_nil, List.map_nil, List.append_nil, addTargets]
    exact ⟨fun h' => absurd h' hm, fun _ => ⟨mk, rfl, h⟩⟩
  | cons t ts ih =>
    intro occs mk h hm hg
    simp only [addTargets]
    by_cases ht : t = notParallelName
    · subst ht
      have hf : (notParallelName :: ts).filter (· ≠ notParallelName) = ts.filter (· ≠ notParallelName) := by simp
      rw [hf] at hg ⊢
      simp only [addTarget, if_true]
      exact ih occs _ ⟨h.targets, h.first⟩ hm hg
    · have hf : (t :: ts).filter (· ≠ notParallelName) = t :: ts.filter (· ≠ notParallelName) := by simp [ht]
      rw [hf] at hg ⊢
      rw [List.map_cons, ← List.singleton_append, ← List.append_assoc] at hg ⊢
      refine Out.bind (addTarget_out h hm t b ht (hg.sub fun o ho => List.mem_append.2 (Or.inl ho))) ?_
      intro mk' hm' h'
      exact ih _ mk' h' hm' hg

/-- All blocks. -/
theorem addBlocks_out {n : Nat} : ∀ (bs : List Spec.Blocks.Block) (occs : List (Str × Spec.Blocks.Block)) (mk : Mk), Rep occs mk →
    ¬ MixedO occs → GoodO n (occs ++ Spec.Blocks.occurrences bs) → Out (occs ++ Spec.Blocks.occurrences bs) (addBlocks n mk (bs.map ofSpec)) := by
  intro bs
  induction bs with
  | nil =>
    intro occs mk h hm _
    simp only [Spec.Blocks.occurrences, List.flatMap_nil, List.append_nil, List.map_nil, addBlocks]
    exact ⟨fun h' => absurd h' hm, fun _ => ⟨mk, rfl, h⟩⟩
  | cons b bs ih =>
    intro occs mk h hm hg
    have ho : Spec.Blocks.occurrences (b :: bs) = ((b.targets.filter (· ≠ notParallelName)).map fun t => (t, b)) ++ Spec.Blocks.occurrences bs := rfl
    rw [ho, ← List.append_assoc] at hg ⊢
    simp only [List.map_cons, addBlocks]
    refine Out.bind ?_ fun mk' hm' h' => ih _ mk' h' hm' hg
    simp only [addBlock, syncLoop_filter, filter_deps]
    exact addTargets_out b b.targets occs _ ⟨h.targets, h.first⟩ hm (hg.sub fun o ho => List.mem_append.2 (Or.inl ho))

end Jom.Blocks

/- From the parsed table to the build: cycle check, preselection of inference rules. -/
import Verif.Model.Prepare
import Verif.Proofs.Sync
import Verif.Proofs.Cycle

namespace Jom.Prepare

open Blocks Inference Relation
open Spec.Blocks (canon Enclosed)

theorem canon_idem (s : Str) : canon (canon s) = canon s := by
  rw [canon_native (canon_noSlash s)]
  unfold canon
  simp only [toLower, List.map_map]
  apply List.map_congr_left
  intro c _
  simp only [Function.comp]
  split
  · rfl
  · exact toLowerC_idem c

theorem canon_lower {s : Str} (h : '/' ∉ s) : canon (toLower s) = toLower s := by
  rw [← canon_native h, canon_idem]

theorem unquoted {d : Str} (h : ¬ Enclosed d) : removeDoubleQuotes d = d := by
  unfold removeDoubleQuotes
  split
  · rename_i hq
    exfalso
    apply h
    simp only [Bool.and_eq_true, startsWith, endsWith, List.isPrefixOf_iff_prefix, List.isSuffixOf_iff_suffix] at hq
    obtain ⟨⟨a, ha⟩, ⟨b, hb⟩⟩ := hq
    cases b with
    | nil => exact Or.inl hb.symm
    | cons c b =>
      right
      have : c = '"' := by
        rw [← ha] at hb
        simp at hb
        exact hb.1
      subst this
      exact ⟨b, hb.symm⟩
  · rfl

/-- What holds for the tables of the parser: the key of a target is its name in lower case, there are no slashes (and no
dependents in double quotes). -/
structure Plain (mk : Mk) : Prop where
  keys : ∀ k b, find mk.targets k = some b → k = toLower b.name ∧ '/' ∉ b.name
  nodup : (mk.targets.map (·.1)).Nodup
  deps : ∀ k b, find mk.targets k = some b → ∀ d ∈ b.deps, '/' ∉ d ∧ ¬ Enclosed d

theorem Plain.noSlash {mk : Mk} (h : Plain mk) : ∀ k b, find mk.targets k = some b → '/' ∉ k := by
  intro k b hb
  obtain ⟨rfl, h1⟩ := h.keys k b hb
  exact fun hx => h1 (toLower_slash.1 hx)

theorem find_append (l l' : List (Str × α)) (k : Str) : find (l ++ l') k = (find l k).or (find l' k) := by
  simp only [find, List.find?_append]
  cases List.find? (fun e => decide (e.1 = k)) l <;> simp

theorem find_none_iff {l : List (Str × α)} {k : Str} : find l k = none ↔ k ∉ l.map (·.1) := by
  simp only [find, Option.map_eq_none_iff, List.find?_eq_none, decide_eq_true_eq, List.mem_map, not_exists, not_and]

theorem put_new {l : List (Str × α)} {k : Str} (v : α) (h : find l k = none) : put l k v = l ++ [(k, v)] := by
  induction l with
  | nil => rfl
  | cons e l ih =>
    obtain ⟨k', v'⟩ := e
    have hk : k' ≠ k := by
      rintro rfl
      simp [find] at h
    have hf : find l k = none := by
      rw [find_none_iff] at h ⊢
      exact fun hx => h (by simp only [List.map_cons, List.mem_cons]; exact Or.inr hx)
    simp [put, hk, ih hf]

/-! ### Preselection -/

section

variable (mk0 : Mk) (F : Str → List Rule) (W : Str → Prop)

/-- A dependent is taken care of. -/
def Settled (t : Tab) (d : Str) : Prop :=
  (find t.table.targets (canon d) = none ∧ F d = []) ∨ canon d ∈ t.done ∨
    (find mk0.targets (canon d) = none ∧ find t.table.targets (canon d) ≠ none)

/-- Everything has been done for the target with a key. -/
def Complete (t : Tab) (k : Str) : Prop :=
  ∃ b, find t.table.targets k = some b ∧ (b.cmds = [] → (find t.rules k).getD [] = F b.name) ∧
    ∀ d ∈ b.deps, Settled mk0 F t d

/-- Invariant of the preselection. `W` are the wanted names. -/
structure Inv (t : Tab) : Prop where
  ext : ∃ new, t.table = { mk0 with targets := mk0.targets ++ new } ∧
    ∀ e ∈ new, ∃ n, e = (toLower n, { name := n, enabled := false }) ∧ W n ∧ '/' ∉ n ∧ F n ≠ [] ∧
      find t.rules (toLower n) = some (F n)
  nodup : (t.table.targets.map (·.1)).Nodup
  rules : ∀ k rs, find t.rules k = some rs → rs ≠ [] ∧ ∃ b, find t.table.targets k = some b ∧ b.cmds = [] ∧ rs = F b.name
  done : ∀ k ∈ t.done, Complete mk0 F t k

/-- The table has grown. -/
structure Ext (t t' : Tab) : Prop where
  targets : ∃ new, t'.table.targets = t.table.targets ++ new
  done : ∀ k ∈ t.done, k ∈ t'.done
  rules : ∀ k rs, find t.rules k = some rs → find t'.rules k = some rs

end

variable {mk0 : Mk} {F : Str → List Rule} {W : Str → Prop}

theorem Ext.refl (t : Tab) : Ext t t := ⟨⟨[], by simp⟩, fun _ h => h, fun _ _ h => h⟩

theorem Ext.trans {a b c : Tab} (h : Ext a b) (h' : Ext b c) : Ext a c := by
  obtain ⟨n, hn⟩ := h.targets
  obtain ⟨n', hn'⟩ := h'.targets
  exact ⟨⟨n ++ n', by rw [hn', hn, List.append_assoc]⟩, fun k hk => h'.done k (h.done k hk),
    fun k rs hk => h'.rules k rs (h.rules k rs hk)⟩

theorem Ext.find {t t' : Tab} (h : Ext t t') {k : Str} {b : DBlock} (hb : find t.table.targets k = some b) :
    find t'.table.targets k = some b := by
  obtain ⟨n, hn⟩ := h.targets
  rw [hn, find_append, hb]; rfl

theorem Settled.mono {t t' : Tab} (h : Ext t t') {d : Str} (hs : Settled mk0 F t d)
    (hnew : find t.table.targets (canon d) = none → find mk0.targets (canon d) = none) : Settled mk0 F t' d := by
  rcases hs with ⟨h1, h2⟩ | h1 | ⟨h1, h2⟩
  · by_cases h3 : Blocks.find t'.table.targets (canon d) = none
    · exact Or.inl ⟨h3, h2⟩
    · exact Or.inr (Or.inr ⟨hnew h1, h3⟩)
  · exact Or.inr (Or.inl (h.done _ h1))
  · obtain ⟨b, hb⟩ := Option.ne_none_iff_exists'.1 h2
    exact Or.inr (Or.inr ⟨h1, by rw [h.find hb]; simp⟩)

/-- Targets of the original table stay. -/
theorem Inv.old {t : Tab} (h : Inv mk0 F W t) {k : Str} {b : DBlock} (hb : find mk0.targets k = some b) :
    find t.table.targets k = some b := by
  obtain ⟨new, e, _⟩ := h.ext
  rw [e]
  simp only [find_append, hb, Option.some_or]

theorem Inv.none_old {t : Tab} (h : Inv mk0 F W t) {k : Str} (hk : find t.table.targets k = none) :
    find mk0.targets k = none := by
  cases hb : find mk0.targets k with
  | none => rfl
  | some b => rw [h.old hb] at hk; cases hk

/-- The other targets are created ones. -/
theorem Inv.cases {t : Tab} (h : Inv mk0 F W t) {k : Str} {b : DBlock} (hb : find t.table.targets k = some b) :
    find mk0.targets k = some b ∨ (find mk0.targets k = none ∧ ∃ n, k = toLower n ∧ b = { name := n, enabled := false } ∧
      W n ∧ '/' ∉ n ∧ F n ≠ [] ∧ find t.rules k = some (F n)) := by
  obtain ⟨new, e, hn⟩ := h.ext
  rw [e] at hb
  simp only [find_append] at hb
  cases h0 : find mk0.targets k with
  | some b' => rw [h0] at hb; left; simpa using hb
  | none =>
    rw [h0] at hb
    right
    refine ⟨rfl, ?_⟩
    simp only [Option.none_or] at hb
    obtain ⟨n, h1, h2, h3, h4, h5⟩ := hn _ (find_mem hb)
    simp only [Prod.mk.injEq] at h1
    obtain ⟨rfl, rfl⟩ := h1
    exact ⟨n, rfl, rfl, h2, h3, h4, h5⟩

theorem Inv.noSlash {t : Tab} (hp : Plain mk0) (h : Inv mk0 F W t) : ∀ k b, find t.table.targets k = some b → '/' ∉ k := by
  intro k b hb
  rcases h.cases hb with h1 | ⟨_, n, rfl, _, _, h2, _⟩
  · exact hp.noSlash _ _ h1
  · exact fun hx => h2 (toLower_slash.1 hx)

theorem Inv.key {t : Tab} (hp : Plain mk0) (h : Inv mk0 F W t) (d : Str) :
    t.table.key d = (find t.table.targets (canon d)).map fun _ => canon d := key_eq _ _ (h.noSlash hp)

theorem Complete.mono {t t' : Tab} (hi : Inv mk0 F W t) (hi' : Inv mk0 F W t') (h : Ext t t') {k : Str}
    (hc : Complete mk0 F t k) : Complete mk0 F t' k := by
  have hr := h.rules
  obtain ⟨b, h1, h2, h3⟩ := hc
  refine ⟨b, h.find h1, fun he => ?_, fun d hd => (h3 d hd).mono h (hi.none_old)⟩
  have h4 := h2 he
  cases h5 : find t.rules k with
  | some rs => rw [hr k rs h5]; rw [h5] at h4; exact h4
  | none =>
    rw [h5] at h4
    simp only [Option.getD_none] at h4
    cases h6 : find t'.rules k with
    | none => simpa using h4
    | some rs =>
      obtain ⟨h7, b', h8, _, h9⟩ := hi'.rules k rs h6
      rw [h.find h1] at h8
      cases h8
      rw [h9, ← h4] at h7
      exact absurd rfl h7

/-- Creating a target for a dependent. -/
theorem Inv.create {t : Tab} (hfirst : mk0.first ≠ none) (h : Inv mk0 F W t) {d : Str} (hs : '/' ∉ d) (hw : W d) (hk : find t.table.targets (canon d) = none)
    (hF : F d ≠ []) : Inv mk0 F W (createTarget t d (F d)) ∧ Ext t (createTarget t d (F d)) ∧
      Settled mk0 F (createTarget t d (F d)) d := by
  rw [canon_native hs] at hk
  have hdone : t.done.filter (· ≠ toLower d) = t.done := by
    rw [List.filter_eq_self]
    intro k hkd
    obtain ⟨b, hb, _⟩ := h.done k hkd
    simp only [ne_eq, decide_not, Bool.not_eq_eq_eq_not, Bool.not_true, decide_eq_false_iff_not]
    rintro rfl
    rw [hk] at hb; cases hb
  have hrules : ∀ k rs, find t.rules k = some rs → find (createTarget t d (F d)).rules k = some rs := by
    intro k rs hrs
    simp only [createTarget]
    rw [find_put]
    split
    · rename_i e
      subst e
      obtain ⟨_, b, hb, _⟩ := h.rules _ _ hrs
      rw [hk] at hb; cases hb
    · exact hrs
  have htar : (createTarget t d (F d)).table.targets = t.table.targets ++ [(toLower d, { name := d, enabled := false })] := by
    simp only [createTarget, Mk.append]
    exact put_new _ hk
  have hext : Ext t (createTarget t d (F d)) := by
    refine ⟨⟨_, htar⟩, fun k hkd => ?_, hrules⟩
    simp only [createTarget, hdone]; exact hkd
  have hfd : find (createTarget t d (F d)).table.targets (toLower d) = some { name := d, enabled := false } := by
    rw [htar, find_append, hk]
    simp [find]
  obtain ⟨new, e, hn⟩ := h.ext
  have hk0 := h.none_old hk
  have hi : Inv mk0 F W (createTarget t d (F d)) := by
    refine ⟨⟨new ++ [(toLower d, { name := d, enabled := false })], ?_, ?_⟩, ?_, ?_, ?_⟩
    · have : (createTarget t d (F d)).table = { t.table with targets := (createTarget t d (F d)).table.targets } := by
        simp only [createTarget, Mk.append, e]
        cases hm : mk0.first with
        | none => exact absurd hm hfirst
        | some f => rfl
      rw [this, htar, e]
      simp
    · intro x hx
      rcases List.mem_append.1 hx with hx | hx
      · obtain ⟨n, h1, h2, h3, h4, h5⟩ := hn x hx
        exact ⟨n, h1, h2, h3, h4, hrules _ _ h5⟩
      · simp only [List.mem_singleton] at hx
        refine ⟨d, hx, hw, hs, hF, ?_⟩
        simp only [createTarget]
        exact find_put_same _ _ _
    · exact put_nodup _ _ h.nodup
    · intro k rs hrs
      simp only [createTarget] at hrs
      rw [find_put] at hrs
      split at hrs
      · rename_i e'
        subst e'
        cases hrs
        exact ⟨hF, _, hfd, rfl, rfl⟩
      · obtain ⟨h1, b, h2, h3⟩ := h.rules k rs hrs
        exact ⟨h1, b, hext.find h2, h3⟩
    · intro k hkd
      simp only [createTarget, hdone] at hkd
      obtain ⟨b, h1, h2, h3⟩ := h.done k hkd
      refine ⟨b, hext.find h1, fun he => ?_, fun d' hd' => (h3 d' hd').mono hext h.none_old⟩
      have hne : k ≠ toLower d := by
        rintro rfl
        rw [hk] at h1; cases h1
      simp only [createTarget]
      rw [find_put_other _ _ hne]
      exact h2 he
  refine ⟨hi, hext, Or.inr (Or.inr ⟨?_, ?_⟩)⟩
  · rw [canon_native hs]; exact hk0
  · rw [canon_native hs, hfd]; simp

/-- Setting the rules of a target. -/
theorem Inv.setRules {t : Tab} (h : Inv mk0 F W t) {k : Str} {b : DBlock} (hb : find t.table.targets k = some b) (hc : b.cmds = [])
    (hF : F b.name ≠ []) : Inv mk0 F W { t with rules := put t.rules k (F b.name) } ∧
      Ext t { t with rules := put t.rules k (F b.name) } := by
  have hrules : ∀ k' rs, find t.rules k' = some rs → find (put t.rules k (F b.name)) k' = some rs := by
    intro k' rs hrs
    rw [find_put]
    split
    · rename_i e
      subst e
      obtain ⟨_, b', hb', _, h1⟩ := h.rules _ _ hrs
      rw [hb] at hb'; cases hb'
      rw [h1]
    · exact hrs
  have hext : Ext t { t with rules := put t.rules k (F b.name) } := ⟨⟨[], by simp⟩, fun _ h => h, hrules⟩
  refine ⟨⟨?_, h.nodup, ?_, ?_⟩, hext⟩
  · obtain ⟨new, e, hn⟩ := h.ext
    refine ⟨new, e, fun x hx => ?_⟩
    obtain ⟨n, h1, h2, h3, h4, h5⟩ := hn x hx
    exact ⟨n, h1, h2, h3, h4, hrules _ _ h5⟩
  · intro k' rs hrs
    simp only at hrs
    rw [find_put] at hrs
    split at hrs
    · rename_i e
      subst e
      cases hrs
      exact ⟨hF, b, hb, hc, rfl⟩
    · exact h.rules k' rs hrs
  · intro k' hk'
    obtain ⟨b', h1, h2, h3⟩ := h.done k' hk'
    refine ⟨b', h1, fun he => ?_, fun d hd => (h3 d hd).mono hext h.none_old⟩
    simp only
    rw [find_put]
    split
    · rename_i e
      subst e
      rw [hb] at h1; cases h1
      rfl
    · exact h2 he

theorem preselectDeps_ok (hp : Plain mk0) (hfirst : mk0.first ≠ none) (recur : Str → Tab → Option Tab) : ∀ (ds : List Str) (t : Tab),
    Inv mk0 F W t → (∀ d ∈ ds, '/' ∉ d ∧ ¬ Enclosed d ∧ W d) →
    (∀ d ∈ ds, ∀ t, Inv mk0 F W t → find t.table.targets (canon d) ≠ none →
      ∃ t', recur (canon d) t = some t' ∧ Inv mk0 F W t' ∧ Ext t t' ∧ canon d ∈ t'.done) →
    ∃ t', preselectDeps recur F ds t = some t' ∧ Inv mk0 F W t' ∧ Ext t t' ∧ ∀ d ∈ ds, Settled mk0 F t' d := by
  intro ds
  induction ds with
  | nil => intro t hi _ _; exact ⟨t, rfl, hi, Ext.refl t, by simp⟩
  | cons d ds ih =>
    intro t hi hd hr
    obtain ⟨hs, hq, hw⟩ := hd d (by simp)
    have hd' : ∀ d ∈ ds, '/' ∉ d ∧ ¬ Enclosed d ∧ W d := fun x hx => hd x (by simp [hx])
    have hr' := fun x (hx : x ∈ ds) => hr x (by simp [hx])
    have step : ∀ t1, Inv mk0 F W t1 → Ext t t1 → Settled mk0 F t1 d →
        ∃ t', preselectDeps recur F ds t1 = some t' ∧ Inv mk0 F W t' ∧ Ext t t' ∧ ∀ x ∈ d :: ds, Settled mk0 F t' x := by
      intro t1 h1 h2 h3
      obtain ⟨t', e, h4, h5, h6⟩ := ih t1 h1 hd' hr'
      refine ⟨t', e, h4, h2.trans h5, fun x hx => ?_⟩
      rcases List.mem_cons.1 hx with rfl | hx
      · exact h3.mono h5 h1.none_old
      · exact h6 x hx
    simp only [preselectDeps, hi.key hp]
    cases hf : find t.table.targets (canon d) with
    | some b =>
      simp only [Option.map_some]
      obtain ⟨t1, e, h1, h2, h3⟩ := hr d (by simp) t hi (by rw [hf]; simp)
      rw [e]
      exact step t1 h1 h2 (Or.inr (Or.inl h3))
    | none =>
      simp only [Option.map_none, unquoted hq]
      by_cases hF : F d = []
      · rw [if_pos hF]
        exact step t hi (Ext.refl t) (Or.inl ⟨hf, hF⟩)
      · rw [if_neg hF]
        obtain ⟨h1, h2, h3⟩ := hi.create hfirst hs hw hf hF
        exact step _ h1 h2 h3

/-- One dependent of the original table leads to another one. -/
def KeyEdge (mk0 : Mk) (k k' : Str) : Prop :=
  ∃ b, find mk0.targets k = some b ∧ (∃ d ∈ b.deps, canon d = k') ∧ find mk0.targets k' ≠ none

theorem preselect_step (hp : Plain mk0) (hfirst : mk0.first ≠ none) {n : Nat} {k : Str} {b : DBlock} {t : Tab} (hi : Inv mk0 F W t)
    (hb : find t.table.targets k = some b) (hd : ∀ d ∈ b.deps, '/' ∉ d ∧ ¬ Enclosed d ∧ W d)
    (hr : ∀ d ∈ b.deps, ∀ t, Inv mk0 F W t → find t.table.targets (canon d) ≠ none →
      ∃ t', preselect F n (canon d) t = some t' ∧ Inv mk0 F W t' ∧ Ext t t' ∧ canon d ∈ t'.done) :
    ∃ t', preselect F (n + 1) k t = some t' ∧ Inv mk0 F W t' ∧ Ext t t' ∧ k ∈ t'.done := by
  simp only [preselect]
  by_cases hk : k ∈ t.done
  · rw [if_pos hk]; exact ⟨t, rfl, hi, Ext.refl t, hk⟩
  · rw [if_neg hk, hb]
    simp only
    have h1 : ∃ t1, (if b.cmds = [] ∧ F b.name ≠ [] then { t with rules := put t.rules k (F b.name) } else t) = t1 ∧ Inv mk0 F W t1 ∧
        Ext t t1 ∧ (b.cmds = [] → F b.name ≠ [] → find t1.rules k = some (F b.name)) := by
      refine ⟨_, rfl, ?_⟩
      by_cases hc : b.cmds = [] ∧ F b.name ≠ []
      · rw [if_pos hc]
        obtain ⟨g1, g2⟩ := hi.setRules hb hc.1 hc.2
        exact ⟨g1, g2, fun _ _ => find_put_same _ _ _⟩
      · rw [if_neg hc]
        exact ⟨hi, Ext.refl t, fun a b => absurd ⟨a, b⟩ hc⟩
    obtain ⟨t1, e1, hi1, hx1, hr1⟩ := h1
    rw [e1]
    obtain ⟨t2, e2, hi2, hx2, hs2⟩ := preselectDeps_ok hp hfirst (preselect F n) b.deps t1 hi1 hd hr
    rw [e2]
    refine ⟨_, rfl, ?_, ?_, by simp⟩
    · have hx : Ext t2 { t2 with done := k :: t2.done } := ⟨⟨[], by simp⟩, fun _ h => by simp [h], fun _ _ h => h⟩
      refine ⟨hi2.ext, hi2.nodup, hi2.rules, fun k' hk' => ?_⟩
      have hmono : ∀ d, Settled mk0 F t2 d → Settled mk0 F { t2 with done := k :: t2.done } d :=
        fun d h => h.mono hx hi2.none_old
      rcases List.mem_cons.1 hk' with rfl | hk'
      · refine ⟨b, hx2.find (hx1.find hb), fun hc => ?_, fun d hd => hmono d (hs2 d hd)⟩
        by_cases hF : F b.name = []
        · cases hf : find t2.rules k' with
          | none => simp [hF]
          | some rs =>
            obtain ⟨g1, b', g2, _, g3⟩ := hi2.rules _ _ hf
            rw [hx2.find (hx1.find hb)] at g2; cases g2
            rw [g3] at g1; exact absurd hF g1
        · simp only [hx2.rules _ _ (hr1 hc hF), Option.getD_some]
      · obtain ⟨b', g1, g2, g3⟩ := hi2.done k' hk'
        exact ⟨b', g1, g2, fun d hd => hmono d (g3 d hd)⟩
    · exact (hx1.trans hx2).trans ⟨⟨[], by simp⟩, fun _ h => by simp [h], fun _ _ h => h⟩

/-- A created target. -/
theorem preselect_new (hp : Plain mk0) (hfirst : mk0.first ≠ none) {n : Nat} {k : Str} {t : Tab} (hi : Inv mk0 F W t)
    (h0 : find mk0.targets k = none) (h1 : find t.table.targets k ≠ none) :
    ∃ t', preselect F (n + 1) k t = some t' ∧ Inv mk0 F W t' ∧ Ext t t' ∧ k ∈ t'.done := by
  obtain ⟨b, hb⟩ := Option.ne_none_iff_exists'.1 h1
  rcases hi.cases hb with h | ⟨_, m, _, rfl, _⟩
  · rw [h0] at h; cases h
  · exact preselect_step hp hfirst hi hb (by simp) (by simp)

theorem length_le_keys {l : List (Str × α)} {P : List Str} (hn : P.Nodup) (hP : ∀ p ∈ P, find l p ≠ none) : P.length ≤ l.length := by
  have : P ⊆ l.map (·.1) := by
    intro p hp
    exact Classical.byContradiction fun hx => hP p hp (find_none_iff.2 hx)
  have := (List.subperm_of_subset hn this).length_le
  simpa using this

theorem preselect_ok (hp : Plain mk0) (hfirst : mk0.first ≠ none)
    (hW : ∀ n b, W n → find mk0.targets (canon n) = some b → ∀ d ∈ b.deps, W d) : ∀ (n : Nat) (P : List Str) (k : Str) (t : Tab),
    Inv mk0 F W t → find mk0.targets k ≠ none → (∃ m, W m ∧ canon m = k) →
    (∀ x, ReflTransGen (KeyEdge mk0) k x → ¬ TransGen (KeyEdge mk0) x x) → P.Nodup →
    (∀ p ∈ P, find mk0.targets p ≠ none ∧ TransGen (KeyEdge mk0) p k) → mk0.targets.length + 2 ≤ n + P.length →
    ∃ t', preselect F n k t = some t' ∧ Inv mk0 F W t' ∧ Ext t t' ∧ k ∈ t'.done := by
  intro n
  induction n with
  | zero =>
    intro P k t _ _ _ _ hn hP hlen
    have := length_le_keys hn fun p hp => (hP p hp).1
    omega
  | succ n ih =>
    intro P k t hi hk hw hac hn hP hlen
    obtain ⟨m, hm, rfl⟩ := hw
    have hkP : canon m ∉ P := fun h => hac _ .refl (hP _ h).2
    have hn' : (canon m :: P).Nodup := List.nodup_cons.2 ⟨hkP, hn⟩
    have hlen' := length_le_keys (l := mk0.targets) hn' (by
      intro p hp
      rcases List.mem_cons.1 hp with rfl | hp
      · exact hk
      · exact (hP p hp).1)
    simp only [List.length_cons] at hlen'
    obtain ⟨b, hb⟩ := Option.ne_none_iff_exists'.1 hk
    refine preselect_step hp hfirst hi (hi.old hb) (fun d hd => ?_) (fun d hd t hi hf => ?_)
    · obtain ⟨h1, h2⟩ := hp.deps _ _ hb d hd
      exact ⟨h1, h2, hW m b hm hb d hd⟩
    · by_cases h0 : find mk0.targets (canon d) = none
      · obtain ⟨n', rfl⟩ : ∃ n', n = n' + 1 := ⟨n - 1, by omega⟩
        exact preselect_new hp hfirst hi h0 hf
      · have he : KeyEdge mk0 (canon m) (canon d) := ⟨b, hb, ⟨d, hd, rfl⟩, h0⟩
        refine ih (canon m :: P) (canon d) t hi h0 ⟨d, hW m b hm hb d hd, rfl⟩ (fun x hx => hac x (.head he hx)) hn' ?_ ?_
        · intro p hp
          rcases List.mem_cons.1 hp with rfl | hp
          · exact ⟨hk, .single he⟩
          · exact ⟨(hP p hp).1, (hP p hp).2.tail he⟩
        · simp only [List.length_cons]; omega


/-! ### Numbers of targets -/

theorem hashValue_iff {l : List (Str × DBlock)} (hn : (l.map (·.1)).Nodup) (k : Str) (j : Nat) :
    Graph.hashValue (numbered l 0) k = some j ↔ ∃ e, l[j]? = some e ∧ e.1 = k := by
  constructor
  · intro h
    obtain ⟨_, e, h1, h2, _⟩ := (hashValue_numbered l 0 k).2 j h
    exact ⟨e, h1, h2⟩
  · rintro ⟨e, h1, rfl⟩
    cases hv : Graph.hashValue (numbered l 0) e.1 with
    | none =>
      have := (hashValue_numbered l 0 e.1).1.1 hv
      rw [find_none_iff] at this
      exact absurd (List.mem_map_of_mem (List.mem_of_getElem? h1)) this
    | some j' =>
      obtain ⟨_, e', h2, h3, _⟩ := (hashValue_numbered l 0 e.1).2 j' hv
      simp only [Nat.sub_zero] at h2
      have h4 : (l.map (·.1))[j]? = some e.1 := by simp [h1]
      have h5 : (l.map (·.1))[j']? = some e.1 := by simp [h2, h3]
      rw [(List.getElem?_inj (by simpa using (List.getElem?_eq_some_iff.1 h1).1) hn) |>.1 (h4.trans h5.symm)]

theorem target_id {mk : Mk} (dir : Str) (hs : ∀ k b, find mk.targets k = some b → '/' ∉ k) (hn : (mk.targets.map (·.1)).Nodup) (name : Str) (j : Nat) :
    (mk.makefile dir).target name = some j ↔ ∃ e, mk.targets[j]? = some e ∧ e.1 = canon name := by
  rw [← hashValue_iff hn]
  simp only [Graph.Makefile.target, Mk.makefile]
  cases h1 : Graph.hashValue (numbered mk.targets 0) (toLower name) with
  | none => exact Iff.rfl
  | some j' =>
    obtain ⟨_, e, _, _, h3⟩ := (hashValue_numbered mk.targets 0 (toLower name)).2 j' h1
    have h4 : canon name = toLower name := by unfold canon; exact map_slash (hs _ _ h3)
    rw [h4, h1]

/-- The dependents of a table as the cycle check sees them. -/
def Edges (mk : Mk) : Nat → Nat → Prop := Graph.Edge (mk.makefile []).cycleLook

theorem edges_iff {mk : Mk} (hs : ∀ k b, find mk.targets k = some b → '/' ∉ k) (hn : (mk.targets.map (·.1)).Nodup) (i j : Nat) :
    Edges mk i j ↔ ∃ e e', mk.targets[i]? = some e ∧ mk.targets[j]? = some e' ∧ ∃ d ∈ e.2.deps, e'.1 = canon d := by
  simp only [Edges, Graph.Edge, Graph.Makefile.cycleLook, List.mem_map]
  constructor
  · rintro ⟨d, hd, h⟩
    obtain ⟨e', h1, h2⟩ := (target_id [] hs hn d j).1 h
    simp only [Mk.makefile] at hd
    cases he : mk.targets[i]? with
    | none => rw [he] at hd; simp at hd
    | some e => rw [he] at hd; exact ⟨e, e', rfl, h1, d, by simpa using hd, h2⟩
  · rintro ⟨e, e', h1, h2, d, hd, h3⟩
    refine ⟨d, ?_, (target_id [] hs hn d j).2 ⟨e', h2, h3⟩⟩
    simp [Mk.makefile, h1, hd]

/-- No cycle can be reached. -/
def Free (r : α → α → Prop) (a : α) : Prop := ∀ x, ReflTransGen r a x → ¬ TransGen r x x

theorem trans_out {r r' : α → α → Prop} (h : ∀ a b c, r a b → r b c → r' a b) {a b : α} (hab : TransGen r a b) {c : α} (hbc : r b c) :
    TransGen r' a b := by
  induction hab generalizing c with
  | single e => exact .single (h _ _ _ e hbc)
  | tail _ e ih => exact (ih e).tail (h _ _ _ e hbc)

theorem Free.of_out {r r' : α → α → Prop} (h : ∀ a b c, r a b → r b c → r' a b) {a : α} (hf : Free r' a) : Free r a := by
  intro x hx hc
  obtain ⟨y, hxy, _⟩ := TransGen.head'_iff.1 hc
  refine hf x ?_ (trans_out h hc hxy)
  rcases reflTransGen_iff_eq_or_transGen.1 hx with rfl | hx
  · exact .refl
  · exact (trans_out h hx hxy).to_reflTransGen

theorem Free.mono {r r' : α → α → Prop} (h : ∀ a b, r a b → r' a b) {a : α} (hf : Free r' a) : Free r a :=
  fun x hx hc => hf x (ReflTransGen.mono h _ _ hx) (TransGen.mono h _ _ hc)

theorem edges_free {t : Tab} (hp : Plain mk0) (hi : Inv mk0 F W t) (j : Nat) : Free (Edges t.table) j ↔ Free (Edges mk0) j := by
  have e0 := edges_iff hp.noSlash hp.nodup
  have et := edges_iff (hi.noSlash hp) hi.nodup
  obtain ⟨new, he, hn⟩ := hi.ext
  have htar : t.table.targets = mk0.targets ++ new := by rw [he]
  have old : ∀ (i : Nat) (e : Str × DBlock) (d : Str), t.table.targets[i]? = some e → d ∈ e.2.deps → mk0.targets[i]? = some e := by
    intro i e d h hd
    rw [htar] at h
    by_cases hl : i < mk0.targets.length
    · rw [List.getElem?_append_left hl] at h; exact h
    · rw [List.getElem?_append_right (by omega)] at h
      obtain ⟨n, rfl, _⟩ := hn e (List.mem_of_getElem? h)
      simp at hd
  constructor
  · refine Free.mono fun i k h => ?_
    obtain ⟨e, e', h1, h2, h3⟩ := (e0 i k).1 h
    refine (et i k).2 ⟨e, e', ?_, ?_, h3⟩
    · rw [htar, List.getElem?_append_left (List.getElem?_eq_some_iff.1 h1).1]; exact h1
    · rw [htar, List.getElem?_append_left (List.getElem?_eq_some_iff.1 h2).1]; exact h2
  · refine Free.of_out fun i k l h h' => ?_
    obtain ⟨e, e', h1, h2, d, hd, h3⟩ := (et i k).1 h
    obtain ⟨e'', _, h4, _, d', hd', _⟩ := (et k l).1 h'
    rw [h2] at h4; cases h4
    exact (e0 i k).2 ⟨e, e', old _ _ _ h1 hd, old _ _ _ h2 hd', d, hd, h3⟩

theorem edges_key (hp : Plain mk0) {i j : Nat} : Edges mk0 i j ↔ ∃ e e', mk0.targets[i]? = some e ∧ mk0.targets[j]? = some e' ∧ KeyEdge mk0 e.1 e'.1 := by
  rw [edges_iff hp.noSlash hp.nodup]
  constructor
  · rintro ⟨e, e', h1, h2, d, hd, h3⟩
    refine ⟨e, e', h1, h2, e.2, find_of_mem hp.nodup (List.mem_of_getElem? h1), ⟨d, hd, h3.symm⟩, ?_⟩
    rw [find_of_mem hp.nodup (List.mem_of_getElem? h2)]; simp
  · rintro ⟨e, e', h1, h2, b, hb, ⟨d, hd, h3⟩, _⟩
    rw [find_of_mem hp.nodup (List.mem_of_getElem? h1)] at hb; cases hb
    exact ⟨e, e', h1, h2, d, hd, h3.symm⟩

theorem keyEdge_trans {mk0 : Mk} {i j : Nat} {e : Str × DBlock} (hp : Plain mk0) (hi : mk0.targets[i]? = some e) (h : TransGen (Edges mk0) i j) :
    ∃ e', mk0.targets[j]? = some e' ∧ TransGen (KeyEdge mk0) e.1 e'.1 := by
  induction h with
  | single h =>
    obtain ⟨a, b, h1, h2, h3⟩ := (edges_key hp).1 h
    rw [hi] at h1; cases h1
    exact ⟨b, h2, .single h3⟩
  | tail _ h ih =>
    obtain ⟨e', h4, h5⟩ := ih
    obtain ⟨a, b, h1, h2, h3⟩ := (edges_key hp).1 h
    rw [h4] at h1; cases h1
    exact ⟨b, h2, h5.tail h3⟩

theorem edges_trans {mk0 : Mk} {i : Nat} {e : Str × DBlock} {k : Str} (hp : Plain mk0) (hi : mk0.targets[i]? = some e) (h : TransGen (KeyEdge mk0) e.1 k) :
    ∃ j e', mk0.targets[j]? = some e' ∧ e'.1 = k ∧ TransGen (Edges mk0) i j := by
  have exist : ∀ k, find mk0.targets k ≠ none → ∃ (j : Nat) (e' : Str × DBlock), mk0.targets[j]? = some e' ∧ e'.1 = k := by
    intro k hk
    obtain ⟨b, hb⟩ := Option.ne_none_iff_exists'.1 hk
    obtain ⟨j, hj⟩ := List.mem_iff_getElem?.1 (find_mem hb)
    exact ⟨j, _, hj, rfl⟩
  induction h with
  | single h =>
    have h1 := h
    obtain ⟨b, _, _, h0⟩ := h
    obtain ⟨j, e', hj, rfl⟩ := exist _ h0
    exact ⟨j, e', hj, rfl, .single ((edges_key hp).2 ⟨e, e', hi, hj, h1⟩)⟩
  | tail _ h ih =>
    obtain ⟨j, e', hj, rfl, h2⟩ := ih
    have h1 := h
    obtain ⟨b, _, _, h0⟩ := h
    obtain ⟨j', e'', hj', rfl⟩ := exist _ h0
    exact ⟨j', e'', hj', rfl, h2.tail ((edges_key hp).2 ⟨e', e'', hj, hj', h1⟩)⟩

theorem free_key {mk0 : Mk} {i : Nat} {e : Str × DBlock} (hp : Plain mk0) (hi : mk0.targets[i]? = some e) :
    Free (Edges mk0) i ↔ Free (KeyEdge mk0) e.1 := by
  constructor
  · intro h x hx hc
    have h1 : ∃ j e', mk0.targets[j]? = some e' ∧ e'.1 = x ∧ ReflTransGen (Edges mk0) i j := by
      rcases reflTransGen_iff_eq_or_transGen.1 hx with rfl | hx
      · exact ⟨i, e, hi, rfl, .refl⟩
      · obtain ⟨j, e', h1, h2, h3⟩ := edges_trans hp hi hx
        exact ⟨j, e', h1, h2, h3.to_reflTransGen⟩
    obtain ⟨j, e', hj, rfl, h2⟩ := h1
    obtain ⟨j', e'', h3, h4, h5⟩ := edges_trans hp hj hc
    have : j' = j := by
      have g1 : (mk0.targets.map (·.1))[j]? = some e'.1 := by simp [hj]
      have g2 : (mk0.targets.map (·.1))[j']? = some e'.1 := by simp [h3, h4]
      exact ((List.getElem?_inj (by simpa using (List.getElem?_eq_some_iff.1 hj).1) hp.nodup).1 (g1.trans g2.symm)).symm
    subst this
    exact h _ h2 h5
  · intro h x hx hc
    have h1 : ∃ e', mk0.targets[x]? = some e' ∧ ReflTransGen (KeyEdge mk0) e.1 e'.1 := by
      rcases reflTransGen_iff_eq_or_transGen.1 hx with rfl | hx
      · exact ⟨e, hi, .refl⟩
      · obtain ⟨e', h1, h2⟩ := keyEdge_trans hp hi hx
        exact ⟨e', h1, h2.to_reflTransGen⟩
    obtain ⟨e', h2, h3⟩ := h1
    obtain ⟨e'', h4, h5⟩ := keyEdge_trans hp h2 hc
    rw [h2] at h4; cases h4
    exact h _ h3 h5

/-! ### The loop over the requested targets -/

theorem rest_le (l : List Nat) (n : Nat) : Graph.rest (List.range n) l ≤ n := by
  unfold Graph.rest
  exact Nat.le_trans (List.length_filter_le _ _) (by simp)

theorem activate_ok (hp : Plain mk0) (hfirst : mk0.first ≠ none)
    (hW : ∀ n b, W n → find mk0.targets (canon n) = some b → ∀ d ∈ b.deps, W d) : ∀ (as : List Str) (marks : List Nat × List Nat) (t : Tab),
    Inv mk0 F W t → marks.1 = [] → Graph.MarkInv (t.table.makefile []).cycleLook marks →
    (∀ a ∈ as, W a ∧ find mk0.targets (canon a) ≠ none) →
    ((∃ a ∈ as, ¬ Free (KeyEdge mk0) (canon a)) → ∃ (x : Nat) (e : Str × DBlock), activate F as marks t = .error (.cycle e.2.name) ∧ mk0.targets[x]? = some e ∧
      TransGen (KeyEdge mk0) e.1 e.1) ∧
    ((∀ a ∈ as, Free (KeyEdge mk0) (canon a)) → ∃ t', activate F as marks t = .ok t' ∧ Inv mk0 F W t' ∧ Ext t t' ∧
      ∀ a ∈ as, canon a ∈ t'.done) := by
  intro as
  induction as with
  | nil => intro marks t hi _ _ _; exact ⟨by simp, fun _ => ⟨t, rfl, hi, Ext.refl t, by simp⟩⟩
  | cons a as ih =>
    intro marks t hi hm1 hm has
    obtain ⟨hWa, hka⟩ := has a (by simp)
    have has' := fun x (hx : x ∈ as) => has x (by simp [hx])
    obtain ⟨b, hb⟩ := Option.ne_none_iff_exists'.1 hka
    obtain ⟨j, hj⟩ := List.mem_iff_getElem?.1 (find_mem hb)
    obtain ⟨new, he, hnew⟩ := hi.ext
    have htar : t.table.targets = mk0.targets ++ new := by rw [he]
    have hjl := (List.getElem?_eq_some_iff.1 hj).1
    have htj : (t.table.makefile []).target a = some j := by
      rw [target_id [] (hi.noSlash hp) hi.nodup]
      exact ⟨_, by rw [htar, List.getElem?_append_left hjl]; exact hj, rfl⟩
    simp only [activate, htj]
    have hfuel := Graph.checkForCycles_fuel (t.table.makefile []).cycleLook (U := List.range t.table.targets.length)
      (fun x _ c hc => by
        obtain ⟨_, e', _, h2, _⟩ := (edges_iff (hi.noSlash hp) hi.nodup x c).1 hc
        exact List.mem_range.2 (List.getElem?_eq_some_iff.1 h2).1)
      (t.table.targets.length + 1) (some j) (by
        rintro _ ⟨⟩
        rw [List.mem_range, htar, List.length_append]; omega) marks hm
      (Nat.lt_succ_of_le (rest_le _ _))
    have hfree : Free (Edges t.table) j ↔ Free (KeyEdge mk0) (canon a) := (edges_free hp hi j).trans (free_key hp hj)
    cases hc : Graph.checkForCycles (t.table.makefile []).cycleLook (t.table.targets.length + 1) (some j) marks with
    | error err =>
      cases err with
      | fuel => exact absurd hc hfuel
      | cycle x =>
        obtain ⟨h1, h2⟩ := Graph.checkForCycles_err _ _ j marks x (by rw [hm1]; simp) hc hm
        have hnf : ¬ Free (KeyEdge mk0) (canon a) := fun h => hfree.2 h x h1 h2
        refine ⟨fun _ => ?_, fun h => absurd (h a (by simp)) hnf⟩
        have h3 : TransGen (Edges mk0) x x := by
          obtain ⟨y, hxy, _⟩ := TransGen.head'_iff.1 h2
          refine trans_out (r := Edges t.table) (fun i k l g g' => ?_) h2 hxy
          have old : ∀ (i : Nat) (e : Str × DBlock) (d : Str), t.table.targets[i]? = some e → d ∈ e.2.deps → mk0.targets[i]? = some e := by
            intro i e d h hd
            rw [htar] at h
            by_cases hl : i < mk0.targets.length
            · rw [List.getElem?_append_left hl] at h; exact h
            · rw [List.getElem?_append_right (by omega)] at h
              obtain ⟨n, rfl, _⟩ := hnew e (List.mem_of_getElem? h)
              simp at hd
          obtain ⟨e, e', g1, g2, d, hd, g3⟩ := (edges_iff (hi.noSlash hp) hi.nodup i k).1 g
          obtain ⟨e'', _, g4, _, d', hd', _⟩ := (edges_iff (hi.noSlash hp) hi.nodup k l).1 g'
          rw [g2] at g4; cases g4
          exact (edges_iff hp.noSlash hp.nodup i k).2 ⟨e, e', old _ _ _ g1 hd, old _ _ _ g2 hd', d, hd, g3⟩
        obtain ⟨y, hxy, _⟩ := TransGen.head'_iff.1 h3
        obtain ⟨e, _, g1, _, _⟩ := (edges_key hp).1 hxy
        obtain ⟨e', g2, g3⟩ := keyEdge_trans hp g1 h3
        rw [g1] at g2; cases g2
        have g4 : t.table.targets[x]? = some e := by
          rw [htar, List.getElem?_append_left (List.getElem?_eq_some_iff.1 g1).1]; exact g1
        exact ⟨x, e, by simp [g4], g1, g3⟩
    | ok marks' =>
      obtain ⟨h1, h2, _, h4⟩ := Graph.checkForCycles_ok _ _ _ _ _ hm hc
      have hja : Free (KeyEdge mk0) (canon a) := hfree.1 (h1.acyclic j (h4 j rfl))
      simp only [hi.key hp, hi.old hb, Option.map_some]
      obtain ⟨t', g1, g2, g3, g4⟩ := preselect_ok hp hfirst hW (t.table.targets.length + 2) [] (canon a) t hi hka ⟨a, hWa, rfl⟩ hja
        List.nodup_nil (by simp) (by rw [htar]; simp)
      rw [g1]
      simp only
      have hm' : Graph.MarkInv (t'.table.makefile []).cycleLook marks' := by
        refine ⟨fun x hx => ?_, h1.disj, h1.nodup⟩
        exact (edges_free hp g2 x).2 ((edges_free hp hi x).1 (h1.acyclic x hx))
      obtain ⟨i1, i2⟩ := ih marks' t' g2 (by rw [h2, hm1]) hm' has'
      constructor
      · rintro ⟨a', ha', hnf⟩
        refine i1 ?_
        rcases List.mem_cons.1 ha' with rfl | ha'
        · exact absurd hja hnf
        · exact ⟨a', ha', hnf⟩
      · intro hall
        obtain ⟨t'', k1, k2, k3, k4⟩ := i2 fun x hx => hall x (by simp [hx])
        refine ⟨t'', k1, k2, g3.trans k3, fun x hx => ?_⟩
        rcases List.mem_cons.1 hx with rfl | hx
        · exact k3.done _ g4
        · exact k4 x hx

end Jom.Prepare

/- The tables of the parser are regular; what the preselection leaves behind. -/
import Verif.Proofs.Prepare
import Verif.Spec.Setup

namespace Jom.Prepare

open Blocks Inference Relation
open Spec.Blocks (canon Enclosed Described)
open Spec.Setup

/-- Names of targets are their keys. -/
structure Keyed (mk : Mk) : Prop where
  keys : ∀ k b, find mk.targets k = some b → k = toLower b.name ∧ '/' ∉ b.name
  nodup : (mk.targets.map (·.1)).Nodup
  first : (mk.targets = [] ∧ mk.first = none) ∨ ∃ k b, mk.first = some k ∧ find mk.targets k = some b

theorem put_ne_nil (l : List (Str × α)) (k : Str) (v : α) : put l k v ≠ [] := by
  cases l with
  | nil => simp [put]
  | cons e l => obtain ⟨k', v'⟩ := e; unfold put; split <;> simp

theorem Keyed.put {mk : Mk} (h : Keyed mk) {k : Str} {b b' : DBlock} (hb : find mk.targets k = some b) (hn : b'.name = b.name) :
    Keyed { mk with targets := Blocks.put mk.targets k b' } := by
  refine ⟨fun k' x hx => ?_, put_nodup _ _ h.nodup, Or.inr ?_⟩
  · simp only at hx
    rw [find_put] at hx
    split at hx
    · rename_i e
      cases hx
      rw [hn, e]; exact h.keys _ _ hb
    · exact h.keys _ _ hx
  · obtain ⟨f, x, h1, h2⟩ : ∃ k b, mk.first = some k ∧ find mk.targets k = some b := by
      rcases h.first with ⟨e, _⟩ | h1
      · rw [e] at hb; cases hb
      · exact h1
    simp only
    by_cases hf : f = k
    · exact ⟨f, b', h1, by rw [find_put, if_pos hf]⟩
    · exact ⟨f, x, h1, by rw [find_put, if_neg hf]; exact h2⟩

theorem addDeps_name {n : Nat} {b b' : DBlock} {deps : List Str} (h : addDeps n b deps = .ok b') : b'.name = b.name := by
  unfold addDeps at h
  split at h
  · cases h
  · cases h; rfl

theorem addCmds_name (b : DBlock) (c : Bool) (cmds : List Command) : (addCmds b c cmds).name = b.name := by
  unfold addCmds
  split
  · rfl
  · split <;> rfl

theorem addTarget_keyed {n : Nat} {deps : List Str} {dbl : Bool} {cmds : List Command} {mk mk' : Mk} {t : Str} (h : Keyed mk)
    (ht : '/' ∉ t) (ha : addTarget n deps dbl cmds mk t = .ok mk') : Keyed mk' := by
  unfold addTarget at ha
  split at ha
  · cases ha; exact ⟨h.keys, h.nodup, h.first⟩
  · split at ha
    · rename_i key hk
      split at ha
      · cases ha; exact h
      · rename_i b hb
        split at ha
        · cases ha
        · simp only [bind, Except.bind] at ha
          split at ha
          · cases ha
          · rename_i b' hb'
            cases ha
            exact h.put hb (by rw [addCmds_name, addDeps_name hb'])
    · rename_i hk
      simp only [bind, Except.bind] at ha
      split at ha
      · cases ha
      · rename_i b' hb'
        cases ha
        have hname : (addCmds b' true cmds).name = t := by rw [addCmds_name, addDeps_name hb']
        refine ⟨fun k x hx => ?_, put_nodup _ _ h.nodup, Or.inr ?_⟩
        · simp only [Mk.append] at hx
          rw [find_put] at hx
          split at hx
          · rename_i e
            cases hx
            rw [hname] at e ⊢
            exact ⟨e, ht⟩
          · exact h.keys _ _ hx
        · simp only [Mk.append]
          rcases h.first with ⟨_, hf⟩ | ⟨f, x, hf, h2⟩
          · exact ⟨_, _, by rw [hf]; rfl, find_put_same _ _ _⟩
          · by_cases hf' : f = toLower (addCmds b' true cmds).name
            · exact ⟨f, _, by rw [hf]; rfl, by rw [find_put, if_pos hf']⟩
            · exact ⟨f, x, by rw [hf]; rfl, by rw [find_put, if_neg hf']; exact h2⟩

theorem addTargets_keyed {n : Nat} {deps : List Str} {dbl : Bool} {cmds : List Command} : ∀ (ts : List Str) {mk mk' : Mk}, Keyed mk →
    (∀ t ∈ ts, '/' ∉ t) → addTargets n deps dbl cmds mk ts = .ok mk' → Keyed mk' := by
  intro ts
  induction ts with
  | nil => intro mk mk' h _ ha; cases ha; exact h
  | cons t ts ih =>
    intro mk mk' h ht ha
    simp only [addTargets, bind, Except.bind] at ha
    split at ha
    · cases ha
    · rename_i mk1 h1
      exact ih (addTarget_keyed h (ht t (by simp)) h1) (fun x hx => ht x (by simp [hx])) ha

theorem addBlocks_keyed {n : Nat} : ∀ (bs : List Block) {mk mk' : Mk}, Keyed mk → (∀ b ∈ bs, ∀ t ∈ b.targets, '/' ∉ t) →
    addBlocks n mk bs = .ok mk' → Keyed mk' := by
  intro bs
  induction bs with
  | nil => intro mk mk' h _ ha; cases ha; exact h
  | cons b bs ih =>
    intro mk mk' h ht ha
    simp only [addBlocks, bind, Except.bind] at ha
    split at ha
    · cases ha
    · rename_i mk1 h1
      refine ih (addTargets_keyed b.targets ?_ (ht b (by simp)) h1) (fun x hx => ht x (by simp [hx])) ha
      exact ⟨h.keys, h.nodup, h.first⟩

theorem keyed_empty : Keyed {} := ⟨by simp [find], by simp, by simp⟩

theorem applySync_keyed : ∀ (order : List (Str × List Str)) {mk : Mk}, Keyed mk → Keyed (applySync mk order) := by
  intro order
  induction order with
  | nil => intro mk h; exact h
  | cons e order ih =>
    intro mk h
    obtain ⟨name, deps⟩ := e
    unfold applySync
    split
    · exact h
    · split
      · exact h
      · rename_i b hb
        exact ih (h.put hb rfl)

/-- Sync points add nothing but dependents. -/
theorem applySync_find : ∀ (order : List (Str × List Str)) (mk : Mk) (k : Str),
    (find (applySync mk order).targets k).map (fun b => (b.name, b.cmds)) = (find mk.targets k).map (fun b => (b.name, b.cmds)) := by
  intro order
  induction order with
  | nil => intro mk k; rfl
  | cons e order ih =>
    intro mk k
    obtain ⟨name, deps⟩ := e
    unfold applySync
    split
    · rfl
    · split
      · rfl
      · rename_i key _ b hb
        rw [ih]
        simp only
        rw [find_put]
        split
        · rename_i e; subst e; rw [hb]; rfl
        · rfl

theorem applySync_first : ∀ (order : List (Str × List Str)) (mk : Mk), (applySync mk order).first = mk.first := by
  intro order
  induction order with
  | nil => intro mk; rfl
  | cons e order ih =>
    intro mk
    obtain ⟨name, deps⟩ := e
    unfold applySync
    split
    · rfl
    · split
      · rfl
      · rw [ih]


/-! ### What can be seen of a table -/

/-- A target of the table. -/
def describe (b : DBlock) : Described := { name := b.name, deps := b.deps, cmds := b.cmds }

/-- What a table says about a name. -/
def Tab.target (t : Tab) (n : Str) : Option Described := (t.table.target n).map describe

/-- The inference rules of a target. -/
def Tab.candidates (t : Tab) (n : Str) : List Rule := ((t.table.key n).bind (find t.rules)).getD []

variable {mk0 : Mk} {F : Str → List Rule} {said : Says} {names : List Str}

theorem ready_of_inv (hp : Plain mk0) (hsaid : ∀ n, (find mk0.targets (canon n)).map describe = said n) {t : Tab}
    (hi : Inv mk0 F (Named said names) t) (hdone : ∀ a ∈ names, canon a ∈ t.done) :
    (∀ n d, Named said names n → t.target n = some d → d.cmds = [] → t.candidates n = F d.name) ∧
    Ready said (fun p r => r ∈ F p) names t.target t.candidates := by
  have htarget : ∀ n, t.target n = (find t.table.targets (canon n)).map describe := by
    intro n
    simp only [Tab.target, Mk.target, hi.key hp]
    cases hf : find t.table.targets (canon n) <;> simp [hf]
  have hcand : ∀ n, find t.table.targets (canon n) ≠ none → t.candidates n = (find t.rules (canon n)).getD [] := by
    intro n h
    obtain ⟨b, hb⟩ := Option.ne_none_iff_exists'.1 h
    simp [Tab.candidates, hi.key hp, hb]
  have hsettled : ∀ n, Named said names n → Settled mk0 F t n := by
    intro n hn
    induction hn with
    | requested h => exact Or.inr (Or.inl (hdone _ h))
    | @dependent m d x hm hd hx ih =>
      rw [← hsaid] at hd
      obtain ⟨b, hb, rfl⟩ := Option.map_eq_some_iff.1 hd
      have hc : canon m ∈ t.done := by
        rcases ih with ⟨h1, _⟩ | h1 | ⟨h1, _⟩
        · rw [hi.none_old h1] at hb; cases hb
        · exact h1
        · rw [h1] at hb; cases hb
      obtain ⟨b', h1, _, h3⟩ := hi.done _ hc
      rw [hi.old hb] at h1; cases h1
      exact h3 x hx
  have hlower : ∀ n, '/' ∉ n → canon n = toLower n := fun n h => canon_native h
  have hlist : ∀ n d, Named said names n → t.target n = some d → d.cmds = [] → t.candidates n = F d.name := by
    intro n d hn hd hc
    rw [htarget] at hd
    obtain ⟨b, hb, rfl⟩ := Option.map_eq_some_iff.1 hd
    rw [hcand n (by rw [hb]; simp)]
    rcases hsettled n hn with ⟨h1, _⟩ | h1 | ⟨h1, _⟩
    · rw [h1] at hb; cases hb
    · obtain ⟨b', h2, h3, _⟩ := hi.done _ h1
      rw [hb] at h2; cases h2
      rw [h3 hc]; rfl
    · rcases hi.cases hb with h2 | ⟨_, m, h2, rfl, h4, h5, h6, h7⟩
      · rw [h1] at h2; cases h2
      · rw [h7]; rfl
  refine ⟨hlist, ?_, ?_, ?_, fun n d hn hd hc r => by rw [hlist n d hn hd hc], ?_⟩
  · intro n d hd
    rw [← hsaid] at hd
    obtain ⟨b, hb, rfl⟩ := Option.map_eq_some_iff.1 hd
    exact ⟨describe b, by rw [htarget, hi.old hb]; rfl, rfl, rfl, fun _ => Iff.rfl⟩
  · intro n hn
    have hn0 : find mk0.targets (canon n) = none := by
      rw [← hsaid] at hn; simpa using hn
    rw [htarget]
    constructor
    · intro h
      cases hf : find t.table.targets (canon n) with
      | none => rw [hf] at h; simp at h
      | some b =>
        rcases hi.cases hf with h1 | ⟨_, m, h2, rfl, h4, h5, h6, _⟩
        · rw [hn0] at h1; cases h1
        · exact ⟨m, h4, by rw [hlower m h5, h2], List.exists_mem_of_ne_nil _ h6⟩
    · rintro ⟨m, hm, he, r, hr⟩ h
      have h1 : find t.table.targets (canon m) = none := by rw [he]; simpa using h
      rcases hsettled m hm with ⟨_, h2⟩ | h2 | ⟨_, h2⟩
      · rw [h2] at hr; cases hr
      · obtain ⟨b, hb, _⟩ := hi.done _ h2
        rw [h1] at hb; cases hb
      · exact h2 h1
  · intro n d hn hd
    have hn0 : find mk0.targets (canon n) = none := by
      rw [← hsaid] at hn; simpa using hn
    rw [htarget] at hd
    obtain ⟨b, hb, rfl⟩ := Option.map_eq_some_iff.1 hd
    rcases hi.cases hb with h1 | ⟨_, m, h2, rfl, h4, h5, _⟩
    · rw [hn0] at h1; cases h1
    · exact ⟨rfl, rfl, by simp only [describe]; rw [hlower m h5, h2], h4⟩
  · intro n d hd hc
    rw [htarget] at hd
    obtain ⟨b, hb, rfl⟩ := Option.map_eq_some_iff.1 hd
    rw [hcand n (by rw [hb]; simp)]
    cases hf : find t.rules (canon n) with
    | none => rfl
    | some rs =>
      obtain ⟨_, b', h1, h2, _⟩ := hi.rules _ _ hf
      rw [hb] at h1; cases h1
      exact absurd h2 hc

/-! ### Cycles in terms of names -/

theorem leads_key (hsaid : ∀ n, (find mk0.targets (canon n)).map describe = said n) (a b : Str) :
    Leads said a b ↔ KeyEdge mk0 (canon a) (canon b) := by
  simp only [Leads, KeyEdge]
  constructor
  · rintro ⟨d, hd, hx, hb⟩
    rw [← hsaid] at hd
    obtain ⟨x, h1, rfl⟩ := Option.map_eq_some_iff.1 hd
    refine ⟨x, h1, hx, fun h => hb ?_⟩
    rw [← hsaid, h]; rfl
  · rintro ⟨x, h1, hx, hb⟩
    refine ⟨describe x, by rw [← hsaid, h1]; rfl, hx, fun h => hb ?_⟩
    rw [← hsaid] at h
    simpa using h

theorem plain_canon (hp : Plain mk0) {k : Str} (h : find mk0.targets k ≠ none) : canon k = k := by
  obtain ⟨b, hb⟩ := Option.ne_none_iff_exists'.1 h
  obtain ⟨rfl, h1⟩ := hp.keys k b hb
  exact canon_lower h1

theorem leads_trans (hp : Plain mk0) (hsaid : ∀ n, (find mk0.targets (canon n)).map describe = said n) {k k' : Str}
    (h : TransGen (KeyEdge mk0) k k') : ∀ a b, canon a = k → canon b = k' → TransGen (Leads said) a b := by
  induction h with
  | single h =>
    rintro a b rfl rfl
    exact .single ((leads_key hsaid a b).2 h)
  | @tail x y _ h ih =>
    rintro a b rfl rfl
    have hx : canon x = x := by
      obtain ⟨c, hc, _⟩ := h
      exact plain_canon hp (by rw [hc]; simp)
    exact (ih a x rfl hx).tail ((leads_key hsaid x b).2 (by rw [hx]; exact h))

theorem free_leads (hp : Plain mk0) (hsaid : ∀ n, (find mk0.targets (canon n)).map describe = said n) (a : Str) :
    Free (Leads said) a ↔ Free (KeyEdge mk0) (canon a) := by
  constructor
  · intro h x hx hc
    have hcx : canon x = x := by
      obtain ⟨y, ⟨c, hb, _⟩, _⟩ := TransGen.head'_iff.1 hc
      exact plain_canon hp (by rw [hb]; simp)
    rcases reflTransGen_iff_eq_or_transGen.1 hx with rfl | hx
    · exact h a .refl (leads_trans hp hsaid hc a a rfl rfl)
    · exact h x (leads_trans hp hsaid hx a x rfl hcx).to_reflTransGen (leads_trans hp hsaid hc x x hcx hcx)
  · intro h x hx hc
    have hl : ∀ a b, Leads said a b → KeyEdge mk0 (canon a) (canon b) := fun a b => (leads_key hsaid a b).1
    exact h (canon x) (ReflTransGen.lift canon hl _ _ hx) (TransGen.lift canon hl _ _ hc)

theorem cyclic_iff (hp : Plain mk0) (hsaid : ∀ n, (find mk0.targets (canon n)).map describe = said n) :
    Cyclic said names ↔ ∃ a ∈ names, ¬ Free (KeyEdge mk0) (canon a) := by
  simp only [Cyclic, ← free_leads hp hsaid]
  constructor
  · rintro ⟨a, ha, b, h1, h2⟩; exact ⟨a, ha, fun h => h b h1 h2⟩
  · rintro ⟨a, ha, h⟩
    refine ⟨a, ha, Classical.byContradiction fun hn => h fun x hx hc => hn ⟨x, hx, hc⟩⟩

theorem inv_start (mk0 : Mk) (F : Str → List Rule) (W : Str → Prop) (hn : (mk0.targets.map (·.1)).Nodup) : Inv mk0 F W { table := mk0 } :=
  ⟨⟨[], by simp, by simp⟩, hn, by simp [find], by simp⟩


theorem named_deps {names : List Str} (hsaid : ∀ n, (find mk0.targets (canon n)).map describe = said n) :
    ∀ n b, Named said names n → find mk0.targets (canon n) = some b → ∀ d ∈ b.deps, Named said names d := by
  intro n b hn hb d hd
  exact .dependent hn (d := describe b) (by rw [← hsaid, hb]; rfl) hd

theorem requested_ok {t : Tab} (hp : Plain mk0) (hsaid : ∀ n, (find mk0.targets (canon n)).map describe = said n)
    {W : Str → Prop} (hi : Inv mk0 F W t) {active : List Str} (hk : ∃ k b, mk0.first = some k ∧ find mk0.targets k = some b)
    (hact : ∀ a ∈ active, said a ≠ none) {names : List Str}
    (hn : names = if active = [] then ((mk0.first.bind (find mk0.targets)).map (·.name)).toList else active) :
    ∃ ids, requested t active = .ok ids ∧
      ids.map (fun k => (t.table.targets[k]?).map fun e => describe e.2) = names.map said ∧ ids ≠ [] := by
  obtain ⟨new, he, _⟩ := hi.ext
  have hid : ∀ a, said a ≠ none → ∃ k, (t.table.makefile []).target a = some k ∧
      (t.table.targets[k]?).map (fun e => describe e.2) = said a := by
    intro a ha
    rw [← hsaid] at ha ⊢
    have ha' : find mk0.targets (canon a) ≠ none := fun h => ha (by rw [h]; rfl)
    obtain ⟨b, hb⟩ := Option.ne_none_iff_exists'.1 ha'
    obtain ⟨j, hj⟩ := List.mem_iff_getElem?.1 (find_mem (hi.old hb))
    exact ⟨j, (target_id [] (hi.noSlash hp) hi.nodup a j).2 ⟨_, hj, rfl⟩, by rw [hj, hb]; rfl⟩
  cases active with
  | nil =>
    obtain ⟨k, b, h1, h2⟩ := hk
    have h3 := hi.old h2
    have hne : t.table.targets ≠ [] := by
      intro e; rw [e] at h3; cases h3
    have hf : t.table.first = some k := by rw [he]; exact h1
    obtain ⟨j, hj⟩ := List.mem_iff_getElem?.1 (find_mem h3)
    have hh : Graph.hashValue (t.table.makefile []).hash k = some j := (hashValue_iff hi.nodup k j).2 ⟨_, hj, rfl⟩
    refine ⟨[j], ?_, ?_, by simp⟩
    · simp only [requested, hne, if_false, hf, Option.bind_some, hh]
    · simp only [if_true, h1, Option.bind_some, h2, Option.map_some, Option.toList] at hn
      obtain ⟨e1, e2⟩ := hp.keys k b h2
      rw [hn, List.map_cons, List.map_nil, hj, List.map_cons, List.map_nil, ← hsaid, canon_native e2, ← e1, h2]
      rfl
  | cons a as =>
    simp only [List.cons_ne_nil, if_false] at hn
    subst hn
    obtain ⟨k, h1, h2⟩ := hid a (hact a (by simp))
    have hrest : ∀ as : List Str, (∀ a ∈ as, said a ≠ none) → (as.any fun a => ((t.table.makefile []).target a).isNone) = false ∧
        (as.filterMap (t.table.makefile []).target).map (fun k => (t.table.targets[k]?).map fun e => describe e.2) = as.map said := by
      intro as
      induction as with
      | nil => intro _; simp
      | cons a as ih =>
        intro h
        obtain ⟨k, h1, h2⟩ := hid a (h a (by simp))
        obtain ⟨h3, h4⟩ := ih fun x hx => h x (by simp [hx])
        exact ⟨by simp [h1, h3], by simp [h1, h2, h4]⟩
    obtain ⟨h3, h4⟩ := hrest as fun x hx => hact x (by simp [hx])
    refine ⟨k :: as.filterMap (t.table.makefile []).target, ?_, by simp [h2, h4], by simp⟩
    simp [requested, h1, h3]

theorem keyed_target {mk : Mk} (h : Keyed mk) (n : Str) : mk.target n = find mk.targets (canon n) :=
  target_eq mk n fun k b hb => by
    obtain ⟨rfl, h1⟩ := h.keys k b hb
    exact fun hx => h1 (toLower_slash.1 hx)

/-- What holds for a table of targets when the build starts. -/
structure Tidy (t : Tab) (F : Str → List Rule) : Prop where
  keys : ∀ k b, find t.table.targets k = some b → k = toLower b.name ∧ '/' ∉ b.name
  nodup : (t.table.targets.map (·.1)).Nodup
  rules : ∀ k rs, find t.rules k = some rs → ∃ b, find t.table.targets k = some b ∧ b.cmds = [] ∧ rs = F b.name

theorem tidy_of_inv {W : Str → Prop} (hp : Plain mk0) {t : Tab} (hi : Inv mk0 F W t) : Tidy t F := by
  refine ⟨fun k b hb => ?_, hi.nodup, fun k rs h => (hi.rules k rs h).2⟩
  rcases hi.cases hb with h | ⟨_, n, rfl, rfl, _, h, _⟩
  · exact hp.keys k b h
  · exact ⟨rfl, h⟩

/-- What the end of `Parser::apply` and the beginning of `TargetExecutor::apply` do. -/
theorem prepare_spec {mk : Mk} (hk : Keyed mk) (order : List (Str × List Str))
    (hsaid : ∀ n, ((applySync mk order).target n).map describe = said n)
    (hdeps : ∀ n d, said n = some d → ∀ x ∈ d.deps, '/' ∉ x ∧ ¬ Enclosed x) (rules : List Rule) (suffixes keys active : List Str) :
    (mk.targets = [] → setup rules suffixes order keys active mk =
      match active with
      | [] => .ok ({ table := mk }, [])
      | a :: _ => .error (.noTarget a)) ∧
    (mk.targets ≠ [] → ∀ a, (active.find? fun a => (said a).isNone) = some a →
      setup rules suffixes order keys active mk = .error (.noTarget a)) ∧
    (mk.targets ≠ [] → (∀ a ∈ active, said a ≠ none) → ∀ names,
      names = (if active = [] then ((mk.first.bind (find mk.targets)).map (·.name)).toList else active) →
      (Cyclic said names → ∃ x, setup rules suffixes order keys active mk = .error (.cycle x) ∧ TransGen (Leads said) x x) ∧
      (¬ Cyclic said names → ∃ t ids, setup rules suffixes order keys active mk = .ok (t, ids) ∧
        (∀ n d, Named said names n → t.target n = some d → d.cmds = [] →
          t.candidates n = findRules (calculatePriorities suffixes rules) keys d.name) ∧
        Tidy t (findRules (calculatePriorities suffixes rules) keys) ∧
        Ready said (fun p r => r ∈ findRules (calculatePriorities suffixes rules) keys p) names t.target t.candidates ∧
          ids.map (fun k => (t.table.targets[k]?).map fun e => describe e.2) = names.map said ∧ ids ≠ [])) := by
  have hk0 := applySync_keyed order hk
  have hsaid0 : ∀ n, (find (applySync mk order).targets (canon n)).map describe = said n := fun n => by
    rw [← keyed_target hk0]; exact hsaid n
  have hnone : ∀ a, (mk.key a).isNone = (said a).isNone := by
    intro a
    have h1 : (mk.target a).isNone = (said a).isNone := by
      rw [← hsaid, keyed_target hk, keyed_target hk0]
      have := applySync_find order mk (canon a)
      cases h2 : find (applySync mk order).targets (canon a) <;> cases h3 : find mk.targets (canon a) <;> simp_all
    rw [← h1]
    unfold Mk.target Mk.key
    simp only
    cases h : find mk.targets (toLower a) with
    | some b => simp [h]
    | none =>
      simp only
      cases h' : find mk.targets ((toLower a).map fun c => if c = '/' then '\\' else c) <;> simp [h']
  have hp : Plain (applySync mk order) := by
    refine ⟨hk0.keys, hk0.nodup, fun k b hb d hd => ?_⟩
    obtain ⟨e1, e2⟩ := hk0.keys k b hb
    exact hdeps b.name (describe b) (by rw [← hsaid0, canon_native e2, ← e1, hb]; rfl) d hd
  refine ⟨fun h => ?_, fun h a ha => ?_, fun h hact names hnames => ?_⟩
  · simp only [setup, prepare, h, if_true]
    cases active with
    | nil => simp [requested, h]
    | cons a as =>
      have : ((mk.makefile []).target a) = none := by
        cases hx : (mk.makefile []).target a with
        | none => rfl
        | some j =>
          obtain ⟨e, h1, _⟩ := (target_id [] (fun k b hb => by rw [h] at hb; cases hb) hk.nodup a j).1 hx
          rw [h] at h1; cases h1
      simp [requested, this]
  · have : (active.find? fun a => (mk.key a).isNone) = some a := by rw [← ha]; congr 1; funext x; exact hnone x
    simp only [setup, prepare, h, if_false, this]
  · have hfind : (active.find? fun a => (mk.key a).isNone) = none := by
      rw [List.find?_eq_none]
      intro a ha
      rw [hnone]
      have := hact a ha
      simpa using this
    obtain ⟨kf, bf, hf1, hf2⟩ : ∃ k b, mk.first = some k ∧ find mk.targets k = some b := by
      rcases hk.first with ⟨e, _⟩ | h1
      · exact absurd e h
      · exact h1
    have hfirst : ∃ k b, (applySync mk order).first = some k ∧ find (applySync mk order).targets k = some b ∧ b.name = bf.name := by
      have h1 := applySync_find order mk kf
      rw [hf2] at h1
      cases h2 : find (applySync mk order).targets kf with
      | none => rw [h2] at h1; simp at h1
      | some b =>
        rw [h2] at h1; simp at h1
        exact ⟨kf, b, by rw [applySync_first]; exact hf1, h2, h1.1⟩
    obtain ⟨k0, b0, hg1, hg2, hg3⟩ := hfirst
    have hnames0 : names = if active = [] then (((applySync mk order).first.bind (find (applySync mk order).targets)).map (·.name)).toList else active := by
      rw [hnames, hf1, hg1]; simp [hf2, hg2, hg3]
    have hsome : ∀ a ∈ names, Named said names a ∧ find (applySync mk order).targets (canon a) ≠ none := by
      intro a ha
      refine ⟨.requested ha, ?_⟩
      by_cases he : active = []
      · rw [hnames0, if_pos he, hg1] at ha
        simp only [Option.bind_some, hg2, Option.map_some, Option.toList, List.mem_singleton] at ha
        obtain ⟨e1, e2⟩ := hk0.keys k0 b0 hg2
        rw [ha, canon_native e2, ← e1, hg2]; simp
      · rw [hnames0, if_neg he] at ha
        have := hact a ha
        rw [← hsaid0] at this
        intro hx; rw [hx] at this; simp at this
    have hprep : prepare rules suffixes order keys active mk =
        activate (findRules (calculatePriorities suffixes rules) keys) names ([], []) { table := applySync mk order } := by
      simp only [prepare, h, if_false, hfind]
      rw [hnames]
    obtain ⟨h1, h2⟩ := activate_ok (F := findRules (calculatePriorities suffixes rules) keys) hp (by rw [hg1]; simp)
      (named_deps hsaid0) names ([], []) { table := applySync mk order } (inv_start _ _ _ hk0.nodup) rfl
      ⟨by simp, by simp, by simp⟩ hsome
    simp only [setup, hprep]
    constructor
    · intro hc
      obtain ⟨x, e, h3, h4, h5⟩ := h1 ((cyclic_iff hp hsaid0).1 hc)
      refine ⟨e.2.name, by rw [h3], ?_⟩
      have hfe : find (applySync mk order).targets e.1 = some e.2 := by
        obtain ⟨y, hy⟩ := TransGen.head'_iff.1 h5
        obtain ⟨⟨b, hb, _⟩, _⟩ := hy
        have := find_of_mem hk0.nodup (List.mem_of_getElem? h4)
        exact this
      obtain ⟨e1, e2⟩ := hk0.keys _ _ hfe
      have e3 : canon e.2.name = e.1 := by rw [canon_native e2, ← e1]
      exact leads_trans hp hsaid0 h5 _ _ e3 e3
    · intro hc
      have hfree : ∀ a ∈ names, Free (KeyEdge (applySync mk order)) (canon a) := fun a ha =>
        Classical.byContradiction fun hn => hc ((cyclic_iff hp hsaid0).2 ⟨a, ha, hn⟩)
      obtain ⟨t, h3, h4, _, h5⟩ := h2 hfree
      obtain ⟨ids, h6, h7⟩ := requested_ok hp hsaid0 h4 ⟨k0, b0, hg1, hg2⟩ hact hnames0
      obtain ⟨h8, h9⟩ := ready_of_inv hp hsaid0 h4 h5
      exact ⟨t, ids, by rw [h3]; simp only [h6], h8, tidy_of_inv hp h4, h9, h7⟩

/-! ### Makefiles that say the same -/

/-- Two makefiles say the same, up to repetition of dependents. -/
def Same (said said' : Says) : Prop := ∀ n, (said n = none ∧ said' n = none) ∨ ∃ d d', said n = some d ∧ said' n = some d' ∧ Alike d d'

theorem Same.symm {said said' : Says} (h : Same said said') : Same said' said := by
  intro n
  rcases h n with ⟨h1, h2⟩ | ⟨d, d', h1, h2, h3, h4, h5⟩
  · exact Or.inl ⟨h2, h1⟩
  · exact Or.inr ⟨d', d, h2, h1, h3.symm, h4.symm, fun x => (h5 x).symm⟩

theorem Same.none {said said' : Says} (h : Same said said') (n : Str) : said n = none ↔ said' n = none := by
  rcases h n with ⟨h1, h2⟩ | ⟨d, d', h1, h2, _⟩ <;> simp [h1, h2]

theorem Same.named {said said' : Says} (h : Same said said') {names : List Str} {n : Str} (hn : Named said names n) : Named said' names n := by
  induction hn with
  | requested h => exact .requested h
  | @dependent m d x _ hd hx ih =>
    rcases h m with ⟨h1, _⟩ | ⟨d1, d', h1, h2, _, _, h5⟩
    · rw [h1] at hd; cases hd
    · rw [h1] at hd; cases hd
      exact .dependent ih h2 ((h5 x).2 hx)

theorem Same.leads {said said' : Says} (h : Same said said') {a b : Str} (hl : Leads said a b) : Leads said' a b := by
  obtain ⟨d, hd, ⟨x, hx, hc⟩, hb⟩ := hl
  rcases h a with ⟨h1, _⟩ | ⟨d1, d', h1, h2, _, _, h5⟩
  · rw [h1] at hd; cases hd
  · rw [h1] at hd; cases hd
    exact ⟨d', h2, ⟨x, (h5 x).2 hx, hc⟩, fun e => hb ((h.none b).2 e)⟩

theorem Same.cyclic {said said' : Says} (h : Same said said') {names : List Str} (hc : Cyclic said names) : Cyclic said' names := by
  obtain ⟨a, ha, b, h1, h2⟩ := hc
  exact ⟨a, ha, b, ReflTransGen.mono (fun _ _ => h.leads) _ _ h1, TransGen.mono (fun _ _ => h.leads) _ _ h2⟩

theorem Same.ready {said said' : Says} (h : Same said said') {fits : Str → Rule → Prop} {names : List Str} {target : Str → Option Described}
    {candidates : Str → List Rule} (hr : Ready said fits names target candidates) : Ready said' fits names target candidates := by
  refine ⟨fun n d hd => ?_, fun n hn => ?_, fun n d hn hd => ?_, fun n d hn => ?_, hr.noCandidates⟩
  · rcases h n with ⟨_, h1⟩ | ⟨d1, d', h1, h2, h3, h4, h5⟩
    · rw [h1] at hd; cases hd
    · rw [h2] at hd; cases hd
      obtain ⟨d2, g1, g2, g3, g4⟩ := hr.described n d1 h1
      exact ⟨d2, g1, g2.trans h3.symm, g3.trans h4.symm, fun x => (g4 x).trans (h5 x).symm⟩
  · rw [hr.created n ((h.none n).2 hn)]
    exact ⟨fun ⟨m, g1, g2⟩ => ⟨m, h.named g1, g2⟩, fun ⟨m, g1, g2⟩ => ⟨m, h.symm.named g1, g2⟩⟩
  · obtain ⟨g1, g2, g3, g4⟩ := hr.createdEmpty n d ((h.none n).2 hn) hd
    exact ⟨g1, g2, g3, h.named g4⟩
  · exact hr.fitting n d (h.symm.named hn)

/-- Without `.SYNC`, nothing changes but the number of occurrences of a dependent. -/
theorem applySync_same : ∀ (order : List (Str × List Str)) (mk : Mk), (∀ e ∈ order, e.2 = []) → ∀ k,
    (find mk.targets k = none ∧ find (applySync mk order).targets k = none) ∨
    ∃ b b', find mk.targets k = some b ∧ find (applySync mk order).targets k = some b' ∧ Alike (describe b) (describe b') := by
  have hrefl : ∀ (mk : Mk) k, (find mk.targets k = none ∧ find mk.targets k = none) ∨
    ∃ b b', find mk.targets k = some b ∧ find mk.targets k = some b' ∧ Alike (describe b) (describe b') := by
    intro mk k
    cases h : find mk.targets k with
    | none => exact Or.inl ⟨rfl, rfl⟩
    | some b => exact Or.inr ⟨b, b, rfl, rfl, rfl, rfl, fun _ => Iff.rfl⟩
  intro order
  induction order with
  | nil => intro mk _ k; exact hrefl mk k
  | cons e order ih =>
    intro mk h k
    obtain ⟨name, deps⟩ := e
    have hd : deps = [] := h (name, deps) (by simp)
    unfold applySync
    split
    · exact hrefl mk k
    · split
      · exact hrefl mk k
      · rename_i _ key _ _ b hb
        rcases ih { mk with targets := put mk.targets key { b with deps := removeDuplicates [] (b.deps ++ deps) } }
          (fun e he => h e (by simp [he])) k with ⟨h1, h2⟩ | ⟨b1, b2, h1, h2, h3⟩
        · simp only [find_put] at h1
          split at h1
          · cases h1
          · exact Or.inl ⟨h1, h2⟩
        · simp only [find_put] at h1
          split at h1
          · rename_i e
            cases h1
            obtain ⟨g1, g2, g3⟩ := h3
            refine Or.inr ⟨b, b2, by rw [e]; exact hb, h2, g1, g2, fun x => (g3 x).trans ?_⟩
            simp [describe, removeDuplicates_mem, hd]
          · exact Or.inr ⟨b1, b2, h1, h2, h3⟩

/-- Without `.SYNC`, nothing is recorded. -/
theorem sync_empty {n : Nat} {bs : List Block} {mk : Mk} (h : addBlocks n {} bs = .ok mk) (hs : ∀ b ∈ bs, syncName ∉ b.deps) :
    ∀ e ∈ mk.sync, e.2 = [] := by
  intro e he
  have hf := find_of_mem (record_nodup bs h) he
  have hadds : ∀ a ∈ bs.flatMap (fun b => adds [] [] b.deps), a.2 = [] := by
    intro a ha
    obtain ⟨b, hb, ha⟩ := List.mem_flatMap.1 ha
    have := adds_group b.deps [] [] [] (hs b hb)
    rw [List.append_nil] at this
    rw [this] at ha
    simp only [adds, List.append_nil, List.mem_map] at ha
    obtain ⟨_, _, rfl⟩ := ha
    rfl
  rw [List.eq_nil_iff_forall_not_mem]
  intro x hx
  have hx' : x ∈ (find mk.sync e.1).getD [] := by rw [hf]; exact hx
  rw [addBlocks_sync bs h] at hx'
  rcases record_origin x e.1 _ _ hx' with h1 | ⟨l, h1, h2⟩
  · simp [find] at h1
  · have := hadds _ h1
    simp only at this
    rw [this] at h2; cases h2

end Jom.Prepare

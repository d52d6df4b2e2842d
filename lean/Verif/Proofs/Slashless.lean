import Verif.Model.Blocks
import Verif.Spec.Parser
import Verif.Proofs.StrLemmas
import Verif.Proofs.PathLemmas
import Verif.Props.Inference

/-! No name in the table of targets contains a `/`: the parser replaces them, and nothing brings them back. -/

namespace Jom

/-- No slash. -/
abbrev NoSlash (s : Str) : Prop := '/' ∉ s

theorem noSlash_sub {a b : Str} (h : NoSlash b) (hs : ∀ c ∈ a, c ∈ b) : NoSlash a := fun hc => h (hs _ hc)

theorem noSlash_replaceGo {before after : Str} (ha : NoSlash after) : ∀ {s : Str} (k : Nat), NoSlash s → NoSlash (replaceGo before after k s)
  | [], k, _ => by cases k <;> simp [NoSlash, replaceGo]
  | c :: s, 0, h => by
    simp only [NoSlash, List.mem_cons, not_or] at h
    unfold replaceGo
    split
    · simp only [NoSlash, List.mem_append, not_or]
      exact ⟨ha, noSlash_replaceGo ha _ h.2⟩
    · simp only [NoSlash, List.mem_cons, not_or]
      exact ⟨h.1, noSlash_replaceGo ha _ h.2⟩
  | c :: s, k + 1, h => by
    simp only [NoSlash, List.mem_cons, not_or] at h
    unfold replaceGo
    exact noSlash_replaceGo ha _ h.2

theorem noSlash_replaceAll {before after s : Str} (ha : NoSlash after) (hs : NoSlash s) : NoSlash (replaceAll before after s) := by
  unfold replaceAll
  split
  · simp only [NoSlash, List.mem_append, List.mem_flatMap, not_or, not_exists, not_and]
    refine ⟨fun c hc => ?_, ha⟩
    simp only [List.mem_cons, List.not_mem_nil, or_false]
    exact ⟨ha, by rintro rfl; exact hs hc⟩
  · exact noSlash_replaceGo ha _ hs

theorem noSlash_removeAt1 {s : Str} (h : NoSlash s) (p : Int) : NoSlash (removeAt1 s p) := by
  unfold removeAt1
  simp only
  generalize (if p < 0 then p + ↑(List.length s) else p) = q
  split
  · exact h
  · exact noSlash_sub h fun c hc => List.mem_of_mem_eraseIdx hc

theorem noSlash_parseSubst {s after : Str} {sub : Substitution} (hs : NoSlash s) (h : parseSubst s = .ok (sub, after)) :
    NoSlash sub.after ∧ NoSlash after := by
  unfold parseSubst at h
  split at h
  · rename_i e q qs _
    simp only [Except.ok.injEq, Prod.mk.injEq] at h
    obtain ⟨rfl, rfl⟩ := h
    refine ⟨?_, noSlash_sub hs fun c hc => List.mem_of_mem_drop hc⟩
    have : ∀ (qs : List Nat) (a : Str), NoSlash a → NoSlash (qs.foldl (fun (a : Str) (p : Nat) => removeAt1 a ((p : Int) - q - 1)) a) := by
      intro qs
      induction qs with
      | nil => intro a h; exact h
      | cons p ps ih => intro a h; exact ih _ (noSlash_removeAt1 h _)
    exact this _ _ (noSlash_sub hs fun c hc => List.mem_of_mem_drop (List.mem_of_mem_take hc))
  · cases h

namespace FileMacro

theorem noSlash_stem {s : Str} (h : NoSlash s) : NoSlash (stem s) := by
  unfold stem
  split
  · exact noSlash_sub h fun c hc => List.mem_of_mem_take hc
  · exact h

theorem noSlash_fileName {s : Str} (h : NoSlash s) : NoSlash (fileNameFromFilePath s) := by
  unfold fileNameFromFilePath
  simp only
  split <;> first | exact h | exact noSlash_sub h fun c hc => List.mem_of_mem_drop hc

theorem noSlash_modifier {m : Char} {f : Str → Str} (h : modifier m = some f) {s : Str} (hs : NoSlash s) : NoSlash (f s) := by
  unfold modifier at h
  split at h
  · cases h
    unfold modD
    split
    · decide
    · exact noSlash_sub hs fun c hc => List.mem_of_mem_take hc
  · split at h
    · cases h; exact noSlash_sub (noSlash_fileName hs) fun c hc => (List.takeWhile_sublist _).subset hc
    · split at h
      · cases h; exact noSlash_fileName hs
      · split at h
        · cases h; exact noSlash_stem hs
        · cases h

theorem noSlash_join : ∀ {vs : List Str}, (∀ v ∈ vs, NoSlash v) → NoSlash (join vs)
  | [], _ => by simp [NoSlash, join]
  | [v], h => by
    have := h v (by simp)
    simp only [join, Exec.quoteName]
    split
    · simp [NoSlash] at this ⊢; exact this
    · exact this
  | v :: w :: vs, h => by
    have h1 := h v (by simp)
    have h2 := noSlash_join (vs := w :: vs) (fun x hx => h x (by simp [hx]))
    simp only [join, Exec.quoteName]
    split
    · simp only [NoSlash, List.mem_append, List.mem_cons, not_or]
      simp only [NoSlash] at h1 h2; simp [h1, h2]
    · simp only [NoSlash, List.mem_append, List.mem_cons, not_or]
      exact ⟨h1, by decide, h2⟩

theorem noSlash_macroValues {t : Tgt} (ht : NoSlash t.name) {dep : Option Nat} {s : Str} {vals : List Str} {len : Nat}
    (h : macroValues t dep true s = .ok (vals, len)) : ∀ v ∈ vals, NoSlash v := by
  unfold macroValues at h
  split at h
  · cases h
  · split at h
    · cases h; simpa using ht
    · split at h
      · split at h
        · simp at h
        · cases h; simpa using noSlash_stem ht
      · split at h
        · simp at h
        · cases h; simp

theorem noSlash_replaceAt {t : Tgt} (ht : NoSlash t.name) {dep : Option Nat} {s r : Str} {p : Nat} (hs : NoSlash s)
    (h : replaceAt t dep true s p = .ok (some r)) : NoSlash r := by
  have htake : ∀ k, NoSlash (s.take k) := fun k => noSlash_sub hs fun c hc => List.mem_of_mem_take hc
  have hdrop : ∀ k, NoSlash (s.drop k) := fun k => noSlash_sub hs fun c hc => List.mem_of_mem_drop hc
  have happ : ∀ {a b : Str}, NoSlash a → NoSlash b → NoSlash (a ++ b) := by
    intro a b ha hb; simp only [NoSlash, List.mem_append, not_or]; exact ⟨ha, hb⟩
  unfold replaceAt at h
  split at h
  · cases h
  · rename_i c rest hd
    have hrest : NoSlash rest := by
      have := hdrop (p + 1); rw [hd] at this; simp only [NoSlash, List.mem_cons, not_or] at this; exact this.2
    split at h
    · cases hv : macroValues t dep true rest with
      | error e => rw [hv] at h; cases h
      | ok v =>
        obtain ⟨vals, len⟩ := v
        rw [hv] at h
        have hvals := noSlash_macroValues ht hv
        simp only [bind, Except.bind] at h
        split at h
        · cases h; exact happ (htake _) (hdrop _)
        · split at h
          · cases h
          · rename_i m rest' hm
            have hrest' : NoSlash rest' := by
              have : NoSlash (rest.drop len) := noSlash_sub hrest fun c hc => List.mem_of_mem_drop hc
              rw [hm] at this; simp only [NoSlash, List.mem_cons, not_or] at this; exact this.2
            split at h
            · rename_i f hf
              have hmap : ∀ v ∈ vals.map f, NoSlash v := by
                intro v hv
                obtain ⟨u, hu, rfl⟩ := List.mem_map.1 hv
                exact noSlash_modifier hf (hvals u hu)
              split at h
              · cases h
              · rename_i rest''
                split at h
                · cases h
                · rename_i sub after hsub
                  cases h
                  have hr'' : NoSlash rest'' := by simp only [NoSlash, List.mem_cons, not_or] at hrest'; exact hrest'.2
                  obtain ⟨g1, g2⟩ := noSlash_parseSubst hr'' hsub
                  refine happ (happ (htake _) (noSlash_join ?_)) g2
                  intro v hv
                  obtain ⟨u, hu, rfl⟩ := List.mem_map.1 hv
                  exact noSlash_replaceAll g1 (hmap u hu)
              · cases h
                exact happ (happ (htake _) (noSlash_join hmap)) (hdrop _)
            · split at h
              · split at h
                · cases h
                · rename_i sub after hsub
                  cases h
                  obtain ⟨g1, g2⟩ := noSlash_parseSubst hrest' hsub
                  refine happ (happ (htake _) (noSlash_join ?_)) g2
                  intro v hv
                  obtain ⟨u, hu, rfl⟩ := List.mem_map.1 hv
                  exact noSlash_replaceAll g1 (hvals u hu)
              · split at h
                · cases h
                  exact happ (happ (htake _) (noSlash_join hvals)) (hdrop _)
                · cases h
    · cases hv : macroValues t dep true (c :: rest) with
      | error e => rw [hv] at h; cases h
      | ok v =>
        obtain ⟨vals, len⟩ := v
        rw [hv] at h
        have hvals := noSlash_macroValues ht hv
        simp only [bind, Except.bind] at h
        split at h
        · cases h; exact happ (htake _) (hdrop _)
        · cases h; exact happ (happ (htake _) (noSlash_join hvals)) (hdrop _)

theorem noSlash_loop {t : Tgt} (ht : NoSlash t.name) {dep : Option Nat} : ∀ {n : Nat} {s r : Str} {i : Nat}, NoSlash s →
    loop t dep true n s i = .ok r → NoSlash r
  | 0, _, _, _, _, h => by cases h
  | n + 1, s, r, i, hs, h => by
    unfold loop at h
    split at h
    · cases h; exact hs
    · split at h
      · exact noSlash_loop ht hs h
      · rename_i p _ _
        cases hr : replaceAt t dep true s p with
        | error e => rw [hr] at h; cases h
        | ok o =>
          rw [hr] at h
          cases o with
          | none => exact noSlash_loop ht hs h
          | some u => exact noSlash_loop ht (noSlash_replaceAt ht hs hr) h

theorem noSlash_expandDependents {t : Tgt} (ht : NoSlash t.name) {n : Nat} : ∀ {ds r : List Str}, (∀ d ∈ ds, NoSlash d) →
    expandDependents t n ds = .ok r → ∀ d ∈ r, NoSlash d
  | [], r, _, h => by cases h; simp
  | d :: ds, r, hds, h => by
    unfold expandDependents at h
    cases h1 : expandText t none true n d with
    | error e => rw [h1] at h; cases h
    | ok d' =>
      cases h2 : expandDependents t n ds with
      | error e => rw [h1, h2] at h; cases h
      | ok r' =>
        rw [h1, h2] at h
        cases h
        have := noSlash_loop ht (hds d (by simp)) h1
        have h3 := noSlash_expandDependents ht (fun x hx => hds x (by simp [hx])) h2
        intro x hx
        rcases List.mem_cons.1 hx with rfl | hx
        · exact this
        · exact h3 x hx

end FileMacro

namespace Blocks

theorem find_in {α : Type} {l : List (Str × α)} {k : Str} {v : α} (h : find l k = some v) : ∃ k', (k', v) ∈ l := by
  unfold find at h
  cases hf : l.find? (fun e => e.1 = k) with
  | none => rw [hf] at h; cases h
  | some e => rw [hf] at h; cases h; exact ⟨e.1, List.mem_of_find?_eq_some hf⟩

theorem put_in {α : Type} : ∀ {l : List (Str × α)} {k : Str} {v : α} {e : Str × α}, e ∈ put l k v → e = (k, v) ∨ e ∈ l
  | [], _, _, _, h => by simp [put] at h; exact Or.inl h
  | (k', v') :: l, k, v, e, h => by
    unfold put at h
    split at h
    · rcases List.mem_cons.1 h with h | h
      · exact Or.inl h
      · exact Or.inr (by simp [h])
    · rcases List.mem_cons.1 h with h | h
      · exact Or.inr (by simp [h])
      · rcases put_in h with h | h
        · exact Or.inl h
        · exact Or.inr (by simp [h])

/-- No slashes in the table. -/
structure Slashless (mk : Mk) : Prop where
  targets : ∀ e ∈ mk.targets, NoSlash e.2.name ∧ ∀ d ∈ e.2.deps, NoSlash d
  sync : ∀ e ∈ mk.sync, ∀ d ∈ e.2, NoSlash d

theorem slashless_syncLoop : ∀ {n : Nat} {deps : List Str} {i k : Nat} {sd : List Str} {sp : List (Str × List Str)},
    (∀ d ∈ deps, NoSlash d) → (∀ d ∈ sd, NoSlash d) → (∀ e ∈ sp, ∀ d ∈ e.2, NoSlash d) →
    (∀ d ∈ (syncLoop n deps i k sd sp).1, NoSlash d) ∧ ∀ e ∈ (syncLoop n deps i k sd sp).2, ∀ d ∈ e.2, NoSlash d
  | 0, _, _, _, _, _, h1, _, h3 => ⟨h1, h3⟩
  | n + 1, deps, i, k, sd, sp, h1, h2, h3 => by
    unfold syncLoop
    have hrem : ∀ d ∈ removeAt deps i, NoSlash d := by
      intro d hd
      unfold removeAt at hd
      rcases List.mem_append.1 hd with h | h
      · exact h1 d (List.mem_of_mem_take h)
      · exact h1 d (List.mem_of_mem_drop h)
    split
    · exact ⟨h1, h3⟩
    · rename_i d hd
      split
      · simp only
        split
        · exact ⟨hrem, h3⟩
        · exact slashless_syncLoop hrem (fun d hd => hrem d (List.mem_of_mem_drop (List.mem_of_mem_take hd))) h3
      · refine slashless_syncLoop h1 h2 ?_
        intro e he x hx
        rcases put_in he with rfl | he
        · simp only [List.mem_append] at hx
          rcases hx with hx | hx
          · cases hf : find sp d with
            | none => rw [hf] at hx; simp at hx
            | some v =>
              rw [hf] at hx
              obtain ⟨k', hk'⟩ := find_in hf
              exact h3 _ hk' x hx
          · exact h2 x hx
        · exact h3 e he x hx

theorem slashless_addDeps {n : Nat} {b b' : DBlock} {deps : List Str} (hb : NoSlash b.name ∧ ∀ d ∈ b.deps, NoSlash d)
    (hd : ∀ d ∈ deps, NoSlash d) (h : addDeps n b deps = .ok b') : NoSlash b'.name ∧ ∀ d ∈ b'.deps, NoSlash d := by
  unfold addDeps at h
  split at h
  · cases h
  · rename_i ds hds
    cases h
    refine ⟨hb.1, FileMacro.noSlash_expandDependents (t := { name := b.name, deps := b.deps ++ deps, time := fun _ => 0 }) hb.1 ?_ hds⟩
    intro x hx
    rcases List.mem_append.1 hx with h | h
    · exact hb.2 x h
    · exact hd x h

theorem addCmds_same (b : DBlock) (c : Bool) (cs : List Inference.Command) : (addCmds b c cs).name = b.name ∧ (addCmds b c cs).deps = b.deps := by
  unfold addCmds
  split
  · exact ⟨rfl, rfl⟩
  · split <;> exact ⟨rfl, rfl⟩

theorem slashless_addTarget {n : Nat} {deps : List Str} {double : Bool} {cs : List Inference.Command} {mk mk' : Mk} {t : Str}
    (hm : Slashless mk) (hd : ∀ d ∈ deps, NoSlash d) (ht : NoSlash t) (h : addTarget n deps double cs mk t = .ok mk') : Slashless mk' := by
  unfold addTarget at h
  split at h
  · cases h; exact ⟨hm.targets, hm.sync⟩
  · split at h
    · split at h
      · cases h; exact hm
      · rename_i key _ b hf
        split at h
        · cases h
        · cases h1 : addDeps n b deps with
          | error e => rw [h1] at h; cases h
          | ok b' =>
            rw [h1] at h
            cases h
            obtain ⟨k', hk'⟩ := find_in hf
            have := slashless_addDeps (hm.targets _ hk') hd h1
            refine ⟨?_, hm.sync⟩
            intro e he
            rcases put_in he with rfl | he
            · simp only [(addCmds_same _ _ _).1, (addCmds_same _ _ _).2]; exact this
            · exact hm.targets e he
    · cases h1 : addDeps n { name := t, enabled := double } deps with
      | error e => rw [h1] at h; cases h
      | ok b' =>
        rw [h1] at h
        cases h
        have := slashless_addDeps (b := { name := t, enabled := double }) ⟨ht, by simp⟩ hd h1
        refine ⟨?_, hm.sync⟩
        intro e he
        rcases put_in he with rfl | he
        · simp only [(addCmds_same _ _ _).1, (addCmds_same _ _ _).2]; exact this
        · exact hm.targets e he

theorem slashless_addTargets {n : Nat} {deps : List Str} {double : Bool} {cs : List Inference.Command} (hd : ∀ d ∈ deps, NoSlash d) :
    ∀ {ts : List Str} {mk mk' : Mk}, Slashless mk → (∀ t ∈ ts, NoSlash t) → addTargets n deps double cs mk ts = .ok mk' → Slashless mk'
  | [], mk, mk', hm, _, h => by cases h; exact hm
  | t :: ts, mk, mk', hm, ht, h => by
    unfold addTargets at h
    cases h1 : addTarget n deps double cs mk t with
    | error e => rw [h1] at h; cases h
    | ok m =>
      rw [h1] at h
      exact slashless_addTargets hd (slashless_addTarget hm hd (ht t (by simp)) h1) (fun x hx => ht x (by simp [hx])) h

theorem slashless_addBlocks {n : Nat} : ∀ {bs : List Block} {mk mk' : Mk}, Slashless mk →
    (∀ b ∈ bs, (∀ t ∈ b.targets, NoSlash t) ∧ ∀ d ∈ b.deps, NoSlash d) → addBlocks n mk bs = .ok mk' → Slashless mk'
  | [], mk, mk', hm, _, h => by cases h; exact hm
  | b :: bs, mk, mk', hm, hb, h => by
    unfold addBlocks at h
    cases h1 : addBlock n mk b with
    | error e => rw [h1] at h; cases h
    | ok m =>
      rw [h1] at h
      obtain ⟨hb1, hb2⟩ := hb b (by simp)
      refine slashless_addBlocks ?_ (fun x hx => hb x (by simp [hx])) h
      unfold addBlock at h1
      have := slashless_syncLoop (n := b.deps.length + 1) (i := 0) (k := 0) (sd := []) hb2 (by simp) hm.sync
      exact slashless_addTargets this.1 (mk := { mk with sync := (syncLoop (b.deps.length + 1) b.deps 0 0 [] mk.sync).2 }) ⟨hm.targets, this.2⟩ hb1 h1

theorem removeDuplicates_sub : ∀ {seen l : List Str} {x : Str}, x ∈ removeDuplicates seen l → x ∈ l
  | _, [], _, h => by cases h
  | seen, s :: l, x, h => by
    unfold removeDuplicates at h
    split at h
    · exact List.mem_cons_of_mem _ (removeDuplicates_sub h)
    · rcases List.mem_cons.1 h with rfl | h
      · simp
      · exact List.mem_cons_of_mem _ (removeDuplicates_sub h)

theorem slashless_applySync : ∀ {order : List (Str × List Str)} {mk : Mk}, Slashless mk → (∀ e ∈ order, ∀ d ∈ e.2, NoSlash d) →
    Slashless (applySync mk order)
  | [], mk, hm, _ => hm
  | (name, deps) :: order, mk, hm, ho => by
    unfold applySync
    split
    · exact hm
    · split
      · exact hm
      · rename_i key _ b hf
        refine slashless_applySync ⟨?_, hm.sync⟩ (fun e he => ho e (by simp [he]))
        obtain ⟨k', hk'⟩ := find_in hf
        have hb := hm.targets _ hk'
        intro e he
        rcases put_in he with rfl | he
        · refine ⟨hb.1, fun d hd => ?_⟩
          rcases List.mem_append.1 (removeDuplicates_sub hd) with h | h
          · exact hb.2 d h
          · exact ho _ List.mem_cons_self d h
        · exact hm.targets e he

end Blocks

namespace Spec.Makefile

theorem native_noSlash (s : Str) : NoSlash (native s) := by
  simp only [native, NoSlash, List.mem_map, not_exists, not_and]
  intro c _
  by_cases h : c = '/'
  · simp [h]
  · simp [h]

theorem nameList_noSlash {ns : List Str} {s : Str} (h : NameList ns s) (hs : NoSlash s) : ∀ n ∈ ns, NoSlash n := by
  induction h with
  | nil => simp
  | @cons b t a as as' rest _ _ _ hst _ _ has ih =>
    simp only [NoSlash, List.mem_append, not_or] at hs
    have ha : NoSlash a := by
      obtain ⟨⟨_, ht⟩, _⟩ := hs
      cases hst with
      | quoted => exact noSlash_sub ht fun c hc => by simp [hc]
      | quote => simp [NoSlash]
      | bare => exact noSlash_sub ht fun c hc => by simp [hc]
    intro n hn
    rw [has] at hn
    split at hn
    · exact ih hs.2 n hn
    · rcases List.mem_cons.1 hn with rfl | hn
      · exact ha
      · exact ih hs.2 n hn

theorem wild_noSlash {glob : Str → List Str} (hg : ∀ s, ∀ f ∈ glob s, NoSlash f) {ds fs : List Str} (h : Wild glob ds fs)
    (hs : ∀ d ∈ ds, NoSlash d) : ∀ f ∈ fs, NoSlash f := by
  induction h with
  | nil => simp
  | name _ _ ih =>
    intro f hf
    rcases List.mem_cons.1 hf with rfl | hf
    · exact hs _ (by simp)
    · exact ih (fun d hd => hs d (by simp [hd])) f hf
  | files _ _ _ ih =>
    intro f hf
    rcases List.mem_append.1 hf with hf | hf
    · exact hg _ f hf
    · exact ih (fun d hd => hs d (by simp [hd])) f hf

theorem header_noSlash {glob : Str → List Str} (hg : ∀ s, ∀ f ∈ glob s, NoSlash f) {m : Macros} {s : Str} {targets deps : List Str}
    {double : Bool} {cmd : Option Str} (h : Header glob m s targets deps double cmd) :
    (∀ t ∈ targets, NoSlash t) ∧ ∀ d ∈ deps, NoSlash d := by
  cases h with
  | mk _ _ _ _ h1 _ h2 h3 =>
    exact ⟨nameList_noSlash h1 (native_noSlash _), wild_noSlash hg h3 (nameList_noSlash h2 (native_noSlash _))⟩
  | late _ _ _ _ _ h1 h2 => subst h2; exact ⟨nameList_noSlash h1 (native_noSlash _), by simp⟩

theorem reads_noSlash {glob : Str → List Str} (hg : ∀ s, ∀ f ∈ glob s, NoSlash f) {fl : Flags} {cut : Bool} {ls : List Line} {is : List Item}
    (h : Reads glob fl cut ls is) : ∀ b ∈ blocks is, (∀ t ∈ b.targets, NoSlash t) ∧ ∀ d ∈ b.deps, NoSlash d := by
  induction h with
  | nil => simp [blocks]
  | blank _ _ _ _ ih => exact ih
  | dot _ _ _ _ _ ih => exact ih
  | rule _ _ _ _ _ _ _ _ ih => exact ih
  | block _ _ _ _ _ hh _ _ _ _ _ _ ih =>
    intro b hb
    rcases List.mem_cons.1 hb with rfl | hb
    · exact header_noSlash hg hh
    · exact ih b hb

theorem reads_defined {glob : Str → List Str} {fl : Flags} {cut : Bool} {ls : List Line} {is : List Item} (h : Reads glob fl cut ls is) :
    Props.Defined (rules is) := by
  have key : ∀ r ∈ rules is, r.priority = none ∧ ∀ c ∈ r.toExt, isSep c = false := by
    induction h with
    | nil => simp [rules]
    | blank _ _ _ _ ih => exact ih
    | dot _ _ _ _ _ ih => exact ih
    | rule _ _ hc _ _ _ _ _ ih =>
      intro r hr
      rcases List.mem_cons.1 hr with rfl | hr
      · refine ⟨rfl, fun c hc' => ?_⟩
        rcases List.mem_cons.1 hc' with rfl | hc'
        · rfl
        · have := hc.to_ext.2 c hc'
          cases hs : isSep c with
          | false => rfl
          | true =>
            simp only [isSep, Bool.or_eq_true, beq_iff_eq] at hs
            rcases hs with rfl | rfl
            · exact absurd this (by decide)
            · exact absurd this (by decide)
      · exact ih r hr
    | block _ _ _ _ _ _ _ _ _ _ _ _ ih => exact ih
  exact ⟨fun r hr => (key r hr).1, fun r hr => (key r hr).2⟩

end Spec.Makefile

end Jom

/- How fast a build can be: no more than `-j` targets are made at the same time, and targets of a chain one after the other. -/
import Verif.Props.Speed

namespace Jom.Sched

open Jom.Graph Jom.Spec Jom.Props Relation

/-- What a target that is being made depends on is not being made. -/
theorem Reachable.busyBelow {cfg s} (h : Reachable cfg s) (hac : cfg.keepGoing = true → AcTo cfg s.build) {y z : Nat}
    (hy : y ∈ s.busy.map (·.2)) (hd : DependsTrans (cfg.deps s.build) y z) : z ∉ s.busy.map (·.2) := by
  intro hz
  obtain ⟨p, hp, rfl⟩ := List.mem_map.1 hy
  obtain ⟨q, hq, rfl⟩ := List.mem_map.1 hz
  obtain ⟨a, b, hab⟩ := List.append_of_mem (h.inv.lg.busyStart p hp)
  have := C30_dependents_first cfg s h hac a b s.build p.2 hab q.2 hd
  refine h.inv.lg.busyUnset q hq (mem_settled.2 ?_)
  have hs : ∀ e, e ∈ a → e ∈ s.log := fun e he => by rw [hab]; exact List.mem_append_left _ he
  rcases this with h1 | h1 | h1
  · exact Or.inr (Or.inr (Or.inr (Or.inl (hs _ h1))))
  · exact Or.inl (hs _ h1)
  · exact Or.inr (Or.inl (hs _ h1))

theorem _root_.Jom.Spec.Chain.reaches {needs : Nat → Nat → Prop} {x : Nat} {c : List Nat} (h : Chain needs x c) :
    ∀ z ∈ c, ReflTransGen needs x z := by
  induction h with
  | last x =>
    intro z hz
    rw [List.mem_singleton.1 hz]
  | cons h1 _ ih =>
    intro z hz
    rcases List.mem_cons.1 hz with rfl | hz
    · exact .refl
    · exact .head h1 (ih z hz)

theorem total_congr {w w' : Nat → Nat} : ∀ {c : List Nat}, (∀ x ∈ c, w x = w' x) → total w c = total w' c
  | [], _ => rfl
  | x :: c, h => by
    simp only [total, h x List.mem_cons_self, total_congr fun y hy => h y (List.mem_cons_of_mem _ hy)]

/-- In a unit of time one target of a chain at most is being made. -/
theorem chain_clock {cfg s} (h : Reachable cfg s) (hac : cfg.keepGoing = true → AcTo cfg s.build) (spent : Nat → Nat → Nat) {x : Nat}
    {c : List Nat} (hc : Chain (DependsOn (cfg.deps s.build)) x c) : total (clock s spent s.build) c ≤ total (spent s.build) c + 1 := by
  induction hc with
  | last x =>
    simp only [total, clock]
    split <;> omega
  | @cons x y c h1 h2 ih =>
    by_cases hx : x ∈ s.busy.map (·.2)
    · have : total (clock s spent s.build) c = total (spent s.build) c := by
        refine total_congr fun z hz => ?_
        unfold clock
        rw [if_neg]
        rintro ⟨-, hz'⟩
        exact h.busyBelow hac hx (TransGen.head' h1 (h2.reaches z hz)) hz'
      simp only [total, this]
      unfold clock
      split <;> omega
    · have : clock s spent s.build x = spent s.build x := by
        unfold clock
        rw [if_neg fun hh => hx hh.2]
      simp only [total, this]
      omega

/-- Chains of the requested targets, one for each, take their time one after the other. -/
theorem Timed.chains {cfg dur s spent time} (h : Timed cfg dur s spent time) (hac : cfg.keepGoing = true → AcTo cfg s.build)
    (chains : Nat → List Nat) (hc : ∀ b, chains b = [] ∨ ∃ x, Chain (DependsOn (cfg.deps b)) x (chains b)) (n : Nat) :
    total (fun b => total (spent b) (chains b)) (List.range n) ≤ time := by
  induction h with
  | init =>
    have h0 : ∀ c : List Nat, total (fun _ => 0) c = 0 := by
      intro c
      induction c with
      | nil => rfl
      | cons x c ih => simp [total, ih]
    simp [h0]
  | act ht hs ih =>
    obtain ⟨hm, _⟩ := Advances.step ht.reachable.inv hs
    exact ih fun hk => (hac hk).mono (by rcases hm.build with h | h <;> omega)
  | @tick s spent time ht hne hw hle ih =>
    have ih := ih hac
    have hstep : ∀ b, total (clock s spent b) (chains b) ≤ if b = s.build then total (spent b) (chains b) + 1 else total (spent b) (chains b) := by
      intro b
      by_cases hb : b = s.build
      · subst hb
        rw [if_pos rfl]
        rcases hc s.build with h0 | ⟨x, hx⟩
        · rw [h0]
          simp [total]
        · exact chain_clock ht.reachable hac spent hx
      · rw [if_neg hb]
        refine Nat.le_of_eq (total_congr fun z _ => ?_)
        unfold clock
        rw [if_neg fun hh => hb hh.1]
    refine Nat.le_trans (total_le hstep _) ?_
    by_cases hn : s.build < n
    · rw [total_range_upd (fun b => total (spent b) (chains b)) s.build n hn]
      omega
    · refine Nat.le_trans (Nat.le_of_eq (total_congr fun b hb => ?_)) (Nat.le_succ_of_le ih)
      rw [if_neg]
      have := List.mem_range.1 hb
      omega

/-- A tick is work for the running targets only. -/
theorem done_clock_le (s : St) (spent : Nat → Nat → Nat) : ∀ (keys : List (Nat × Nat)) (b : List Nat), keys.Nodup →
    (∀ k ∈ keys, k.1 = s.build → k.2 ∈ s.busy.map (·.2) → k.2 ∈ b) → done (clock s spent) keys ≤ done spent keys + b.length := by
  intro keys
  induction keys with
  | nil =>
    intro b _ _
    simp [done]
  | cons k keys ih =>
    intro b hk hb
    obtain ⟨hk1, hk2⟩ := List.nodup_cons.1 hk
    by_cases hkb : k.1 = s.build ∧ k.2 ∈ s.busy.map (·.2)
    · have hmem := hb k List.mem_cons_self hkb.1 hkb.2
      have h2 := ih (b.erase k.2) hk2 (fun k' hk' h1 h3 => by
        have hne : k'.2 ≠ k.2 := fun he => hk1 (by
          have : k' = k := Prod.ext (by rw [h1, hkb.1]) he
          rwa [← this])
        exact (List.mem_erase_of_ne hne).2 (hb k' (List.mem_cons_of_mem _ hk') h1 h3))
      have hlen := List.length_erase_of_mem hmem
      have hpos := List.length_pos_of_mem hmem
      have hc : clock s spent k.1 k.2 = spent k.1 k.2 + 1 := if_pos hkb
      simp only [done, hc]
      omega
    · have h2 := ih b hk2 (fun k' hk' => hb k' (List.mem_cons_of_mem _ hk'))
      have hc : clock s spent k.1 k.2 = spent k.1 k.2 := if_neg hkb
      simp only [done, hc]
      omega

/-- At any time at most `-j` targets are being made. -/
theorem Timed.done_le {cfg dur s spent time} (h : Timed cfg dur s spent time) (keys : List (Nat × Nat)) (hk : keys.Nodup) :
    done spent keys ≤ cfg.jobs * time := by
  induction h with
  | init =>
    have h0 : ∀ ks : List (Nat × Nat), done (fun _ _ => 0) ks = 0 := by
      intro ks
      induction ks with
      | nil => rfl
      | cons x c ih => simp [done, ih]
    simp [h0]
  | act _ _ ih => exact ih
  | @tick s spent time ht hne hw hle ih =>
    have h1 := done_clock_le s spent keys (s.busy.map (·.2)) hk (fun _ _ _ h => h)
    have h2 := (C32_job_limit cfg s ht.reachable).2.1
    have h3 := (C32_job_limit cfg s ht.reachable).2.2.1
    rw [List.length_map] at h1
    rw [Nat.mul_succ]
    omega

end Jom.Sched

/- Invariants of the handles of `Process`. -/
import Verif.Spec.Handles

namespace Jom.Handles

open Jom.Spec.Handles

def Pipe.held (p : Pipe) : List Nat := p.hRead.toList ++ p.hWrite.toList

def Proc.held (p : Proc) : List Nat :=
  p.stdin.held ++ (p.stdout.held ++ (p.stderr.held ++ (p.hProcess.toList ++ p.hThread.toList)))

/-- A process that is created inherits its standard handles only, unless an attempt to create a process has failed before. -/
def Own (l : List Os) : Prop :=
  ∀ l2 l1 k i o e, l = l2 ++ .created k i o e :: l1 → failures l1 = 0 → ∀ h ∈ openIn l1, .opened h true ∈ l1 →
    some h = i ∨ some h = o ∨ some h = e

theorem Own.cons {l : List Os} {x : Os} (h : Own l) (hx : ∀ k i o e, x ≠ .created k i o e) : Own (x :: l) := by
  intro l2 l1 k i o e he
  cases l2 with
  | nil => exact absurd (List.cons.inj he).1 (hx k i o e)
  | cons y l2 => exact h l2 l1 k i o e (List.cons.inj he).2

theorem Own.create {l : List Os} {k i o e} (h : Own l) (hx : failures l = 0 → ∀ h ∈ openIn l, .opened h true ∈ l →
    some h = i ∨ some h = o ∨ some h = e) : Own (.created k i o e :: l) := by
  intro l2 l1 k' i' o' e' he
  cases l2 with
  | nil =>
    obtain ⟨h1, h2⟩ := List.cons.inj he
    cases h1
    subst h2
    exact hx
  | cons y l2 => exact h l2 l1 k' i' o' e' (List.cons.inj he).2

def openedIn (l : List Os) : Nat := l.countP fun | .opened .. => true | _ => false

def closedIn (l : List Os) : Nat := l.countP fun | .closed _ => true | _ => false

/-- Handles are new when they are opened, and closed when they are open. -/
structure WInv (w : W) : Prop where
  lt : ∀ h i, .opened h i ∈ w.log → h < w.next
  nodup : (openIn w.log).Nodup
  sub : ∀ h ∈ openIn w.log, ∃ i, .opened h i ∈ w.log
  once : ∀ h, w.log.count (.closed h) ≤ 1
  gone : ∀ h, .closed h ∈ w.log → (∃ i, .opened h i ∈ w.log) ∧ h ∉ openIn w.log
  own : Own w.log
  flag : ∀ h i j, .opened h i ∈ w.log → .opened h j ∈ w.log → i = j
  count : (openIn w.log).length + closedIn w.log = openedIn w.log

/-- What happens between two points of time. -/
structure Later (w w' : W) (created fails ended : Nat) : Prop where
  next : w.next ≤ w'.next
  old : ∀ h i, .opened h i ∈ w'.log → h < w.next → .opened h i ∈ w.log
  keeps : ∀ h i, .opened h i ∈ w.log → .opened h i ∈ w'.log
  nCreated : createdIn w'.log = createdIn w.log + created
  nFails : failures w'.log = failures w.log + fails
  nEnded : endedIn w'.log = endedIn w.log + ended

theorem Later.refl (w : W) : Later w w 0 0 0 := ⟨Nat.le_refl _, fun _ _ h _ => h, fun _ _ h => h, rfl, rfl, rfl⟩

theorem Later.trans {w1 w2 w3 : W} {a b c a' b' c'} (h1 : Later w1 w2 a b c) (h2 : Later w2 w3 a' b' c') :
    Later w1 w3 (a + a') (b + b') (c + c') := by
  refine ⟨Nat.le_trans h1.next h2.next, ?_, fun h i hh => h2.keeps h i (h1.keeps h i hh), ?_, ?_, ?_⟩
  · intro h i hh hlt
    have := h1.next
    exact h1.old h i (h2.old h i hh (by omega)) hlt
  · rw [h2.nCreated, h1.nCreated]; omega
  · rw [h2.nFails, h1.nFails]; omega
  · rw [h2.nEnded, h1.nEnded]; omega

theorem WInv.openHandle {w : W} (h : WInv w) (i : Bool) :
    WInv (openHandle w i) ∧ Later w (openHandle w i) 0 0 0 ∧ openIn (openHandle w i).log = w.next :: openIn w.log ∧
      .opened w.next i ∈ (Handles.openHandle w i).log ∧ (Handles.openHandle w i).log = .opened w.next i :: w.log := by
  have hnew : ∀ i, Os.opened w.next i ∉ w.log := fun i hm => Nat.lt_irrefl _ (h.lt _ _ hm)
  have hno : w.next ∉ openIn w.log := fun hm => by obtain ⟨i, hi⟩ := h.sub _ hm; exact hnew i hi
  refine ⟨⟨?_, ?_, ?_, ?_, ?_, ?_, ?_, ?_⟩, ⟨?_, ?_, ?_, ?_, ?_, ?_⟩, rfl, List.mem_cons_self, rfl⟩
  · intro x j hx
    simp only [Handles.openHandle, List.mem_cons, Os.opened.injEq] at hx ⊢
    rcases hx with ⟨rfl, _⟩ | hx
    · omega
    · have := h.lt _ _ hx; omega
  · simp only [Handles.openHandle, openIn, List.nodup_cons]
    exact ⟨hno, h.nodup⟩
  · intro x hx
    simp only [Handles.openHandle, openIn, List.mem_cons, Os.opened.injEq] at hx ⊢
    rcases hx with rfl | hx
    · exact ⟨i, Or.inl ⟨rfl, rfl⟩⟩
    · obtain ⟨j, hj⟩ := h.sub x hx
      exact ⟨j, Or.inr hj⟩
  · intro x
    simp only [Handles.openHandle]
    rw [List.count_cons_of_ne (by simp)]
    exact h.once x
  · intro x hx
    simp only [Handles.openHandle, openIn, List.mem_cons, reduceCtorEq, false_or, Os.opened.injEq] at hx ⊢
    obtain ⟨⟨j, hj⟩, hn⟩ := h.gone x hx
    refine ⟨⟨j, Or.inr hj⟩, ?_⟩
    rintro (rfl | hh)
    · exact hnew j hj
    · exact hn hh
  · exact h.own.cons (by simp)
  · intro x a b ha hb
    simp only [Handles.openHandle, List.mem_cons, Os.opened.injEq] at ha hb
    rcases ha with ⟨rfl, rfl⟩ | ha <;> rcases hb with ⟨hx, rfl⟩ | hb
    · rfl
    · exact absurd hb (hnew _)
    · subst hx; exact absurd ha (hnew _)
    · exact h.flag _ _ _ ha hb
  · have := h.count
    simp [Handles.openHandle, openIn, closedIn, openedIn] at this ⊢
    omega
  · simp [Handles.openHandle]
  · intro x j hx hlt
    simp only [Handles.openHandle, List.mem_cons, Os.opened.injEq] at hx
    rcases hx with ⟨rfl, _⟩ | hx
    · omega
    · exact hx
  · intro x j hx
    exact List.mem_cons_of_mem _ hx
  · simp [Handles.openHandle, createdIn]
  · simp [Handles.openHandle, failures]
  · simp [Handles.openHandle, endedIn]

/-- An open handle is closed. -/
theorem WInv.closeHandle {w : W} (h : WInv w) {x : Option Nat} {R : List Nat} (hp : (openIn w.log).Perm (x.toList ++ R)) :
    WInv (closeHandle w x) ∧ Later w (closeHandle w x) 0 0 0 ∧ (openIn (closeHandle w x).log).Perm R := by
  cases x with
  | none => exact ⟨h, Later.refl w, by simpa [Handles.closeHandle] using hp⟩
  | some x =>
    simp only [Option.toList_some, List.singleton_append] at hp
    have hx : x ∈ openIn w.log := hp.mem_iff.2 List.mem_cons_self
    have hcl : Os.closed x ∉ w.log := fun hc => (h.gone x hc).2 hx
    refine ⟨⟨?_, ?_, ?_, ?_, ?_, ?_, ?_, ?_⟩, ⟨Nat.le_refl _, ?_, ?_, ?_, ?_, ?_⟩, ?_⟩
    · intro y j hy
      simp only [Handles.closeHandle, List.mem_cons, reduceCtorEq, false_or] at hy ⊢
      exact h.lt _ _ hy
    · exact h.nodup.erase _
    · intro y hy
      obtain ⟨j, hj⟩ := h.sub y (List.mem_of_mem_erase hy)
      exact ⟨j, List.mem_cons_of_mem _ hj⟩
    · intro y
      simp only [Handles.closeHandle]
      by_cases hxy : x = y
      · subst hxy
        rw [List.count_cons_self, List.count_eq_zero.2 hcl]
        omega
      · rw [List.count_cons_of_ne (by simpa using hxy)]
        exact h.once y
    · intro y hy
      simp only [Handles.closeHandle, openIn, List.mem_cons, Os.closed.injEq, reduceCtorEq, false_or] at hy ⊢
      rw [h.nodup.mem_erase_iff]
      rcases hy with rfl | hy
      · exact ⟨h.sub y hx, fun hh => hh.1 rfl⟩
      · obtain ⟨h1, h2⟩ := h.gone y hy
        exact ⟨h1, fun hh => h2 hh.2⟩
    · exact h.own.cons (by simp)
    · intro y a b ha hb
      simp only [Handles.closeHandle, List.mem_cons, reduceCtorEq, false_or] at ha hb
      exact h.flag _ _ _ ha hb
    · have := h.count
      have hpos := List.length_pos_of_mem hx
      simp [Handles.closeHandle, openIn, closedIn, openedIn, List.length_erase_of_mem hx] at this ⊢
      omega
    · intro y j hy _
      simpa [Handles.closeHandle] using hy
    · intro y j hy
      exact List.mem_cons_of_mem _ hy
    · simp [Handles.closeHandle, createdIn]
    · simp [Handles.closeHandle, failures]
    · simp [Handles.closeHandle, endedIn]
    · have := hp.erase x
      simpa [Handles.closeHandle, openIn] using this

/-- Other events do not touch handles. -/
theorem WInv.note {w : W} (h : WInv w) {x : Os} (hx : ∀ h i, x ≠ .opened h i) (hc : ∀ h, x ≠ .closed h)
    (hown : Own (x :: w.log)) : WInv { w with log := x :: w.log } ∧ openIn (x :: w.log) = openIn w.log := by
  have ho : openIn (x :: w.log) = openIn w.log := by
    cases x with
    | opened a b => exact absurd rfl (hx a b)
    | closed a => exact absurd rfl (hc a)
    | _ => rfl
  refine ⟨⟨?_, ?_, ?_, ?_, ?_, hown, ?_, ?_⟩, ho⟩
  · intro y j hy
    rcases List.mem_cons.1 hy with he | hy
    · exact absurd he.symm (hx y j)
    · exact h.lt y j hy
  · simp only [ho]; exact h.nodup
  · intro y hy
    simp only [ho] at hy
    obtain ⟨j, hj⟩ := h.sub y hy
    exact ⟨j, List.mem_cons_of_mem _ hj⟩
  · intro y
    rw [List.count_cons_of_ne (hc y)]
    exact h.once y
  · intro y hy
    rcases List.mem_cons.1 hy with he | hy
    · exact absurd he.symm (hc y)
    · obtain ⟨⟨j, hj⟩, h2⟩ := h.gone y hy
      exact ⟨⟨j, List.mem_cons_of_mem _ hj⟩, by simp only [ho]; exact h2⟩
  · intro y a b ha hb
    rcases List.mem_cons.1 ha with he | ha
    · exact absurd he.symm (hx y a)
    · rcases List.mem_cons.1 hb with he | hb
      · exact absurd he.symm (hx y b)
      · exact h.flag _ _ _ ha hb
  · have := h.count
    simp only [ho]
    cases x with
    | opened a b => exact absurd rfl (hx a b)
    | closed a => exact absurd rfl (hc a)
    | _ => simpa [closedIn, openedIn] using this

theorem createPipe_spec (inh : Bool) : ∀ (n : Nat) (as : List Attempt) (w : W), WInv w → ∀ r w', createPipe inh n as w = (r, w') →
    WInv w' ∧ Later w w' 0 0 0 ∧ openIn w'.log = (r.getD none).toList ++ openIn w.log ∧
      (∀ h, r = some (some h) → w.next ≤ h ∧ .opened h inh ∈ w'.log) ∧ ((r.getD none).toList.length ≤ 1) := by
  intro n
  induction n with
  | zero =>
    intro as w h r w' he
    simp only [createPipe, Prod.mk.injEq] at he
    obtain ⟨rfl, rfl⟩ := he
    exact ⟨h, Later.refl w, rfl, (fun h hh => by cases hh), by simp⟩
  | succ n ih =>
    intro as w h r w' he
    cases as with
    | nil =>
      simp only [createPipe, Prod.mk.injEq] at he
      obtain ⟨rfl, rfl⟩ := he
      exact ⟨h, Later.refl w, rfl, (fun h hh => by cases hh), by simp⟩
    | cons a as =>
      cases a with
      | ok =>
        simp only [createPipe, Prod.mk.injEq] at he
        obtain ⟨rfl, rfl⟩ := he
        obtain ⟨h1, h2, h3, h4, _⟩ := h.openHandle inh
        refine ⟨h1, h2, h3, ?_, by simp⟩
        intro x hx
        cases hx
        exact ⟨Nat.le_refl _, h4⟩
      | busy =>
        simp only [createPipe] at he
        exact ih as w h r w' he
      | error =>
        simp only [createPipe, Prod.mk.injEq] at he
        obtain ⟨rfl, rfl⟩ := he
        exact ⟨h, Later.refl w, rfl, (fun h hh => by cases hh), by simp⟩

/-- The two ends of a pipe are new; which of them is inherited is as told. -/
theorem setupPipe_spec {w w' : W} {input : Bool} {a : PipeAnswer} {r : Option Pipe} (h : WInv w)
    (he : setupPipe w input a = (r, w')) :
    WInv w' ∧ Later w w' 0 0 0 ∧ ∀ p, r = some p → (openIn w'.log).Perm (p.held ++ openIn w.log) ∧
      (∀ x, p.hRead = some x → w.next ≤ x ∧ .opened x input ∈ w'.log) ∧
      (∀ x, p.hWrite = some x → w.next ≤ x ∧ .opened x (!input) ∈ w'.log) := by
  unfold setupPipe at he
  generalize hc : createPipe input 1000 a.attempts w = z at he
  obtain ⟨r1, w1⟩ := z
  obtain ⟨h1, h2, h3, h4, _⟩ := createPipe_spec input _ _ w h r1 w1 hc
  cases r1 with
  | none =>
    simp only [Prod.mk.injEq] at he
    obtain ⟨rfl, rfl⟩ := he
    exact ⟨h1, h2, fun p hp => by cases hp⟩
  | some hRead =>
    simp only [Option.getD_some] at h3
    simp only at he
    split at he
    · simp only [Prod.mk.injEq] at he
      obtain ⟨rfl, rfl⟩ := he
      obtain ⟨k1, k2, k3, k4, _⟩ := h1.openHandle (!input)
      refine ⟨k1, h2.trans k2, ?_⟩
      intro p hp
      cases hp
      refine ⟨?_, ?_, ?_⟩
      · rw [k3, h3]
        simp only [Pipe.held, Option.toList_some]
        rw [List.append_assoc]
        exact (List.perm_middle (a := w1.next) (l₁ := hRead.toList) (l₂ := openIn w.log)).symm
      · intro x hx
        obtain ⟨q1, q2⟩ := h4 x (by rw [← hx])
        exact ⟨q1, k2.keeps _ _ q2⟩
      · intro x hx
        cases hx
        exact ⟨h2.next, k4⟩
    · simp only [Prod.mk.injEq] at he
      obtain ⟨rfl, rfl⟩ := he
      obtain ⟨k1, k2, _⟩ := h1.closeHandle (x := hRead) (R := openIn w.log) (by rw [h3])
      exact ⟨k1, h2.trans k2, fun p hp => by cases hp⟩

/-- No open handle is inherited unless an attempt to create a process has failed. -/
def Quiet (w : W) : Prop := failures w.log = 0 → ∀ h ∈ openIn w.log, .opened h true ∉ w.log

theorem Pipe.held_length (p : Pipe) : p.held.length ≤ 2 := by
  obtain ⟨r, x⟩ := p
  cases r <;> cases x <;> simp [held]

/-- `Process::start` -/
theorem start_spec {w w' : W} {k : Nat} {p : Proc} {a : Answers} {r : Option Proc} (h : WInv w) (hq : Quiet w)
    (hp1 : p.hProcess = none) (hp2 : p.hThread = none) (he : start k w p a = (r, w')) :
    WInv w' ∧ ∀ p', r = some p' → (openIn w'.log).Perm (p'.held ++ openIn w.log) ∧
      (p'.running = true → Later w w' 1 0 0 ∧ p'.held.length ≤ 4 ∧ (∀ x ∈ p'.held, .opened x true ∉ w'.log) ∧
        p'.stdin = {} ∧ p'.stdout.hWrite = none ∧ p'.stderr.hWrite = none) ∧
      (p'.running = false → Later w w' 0 1 0 ∧ p'.held.length ≤ 6 ∧ p'.hProcess = none ∧ p'.hThread = none) := by
  unfold start at he
  generalize hi : setupPipe w true a.stdin = zi at he
  obtain ⟨ri, wi⟩ := zi
  obtain ⟨i1, i2, i3⟩ := setupPipe_spec h hi
  cases ri with
  | none =>
    simp only [Prod.mk.injEq] at he
    obtain ⟨rfl, rfl⟩ := he
    exact ⟨i1, fun p hp => by cases hp⟩
  | some i =>
    obtain ⟨i3, i4, i5⟩ := i3 i rfl
    simp only at he
    generalize ho : setupPipe wi false a.stdout = zo at he
    obtain ⟨ro, wo⟩ := zo
    obtain ⟨o1, o2, o3⟩ := setupPipe_spec i1 ho
    cases ro with
    | none =>
      simp only [Prod.mk.injEq] at he
      obtain ⟨rfl, rfl⟩ := he
      exact ⟨o1, fun p hp => by cases hp⟩
    | some o =>
      obtain ⟨o3, o4, o5⟩ := o3 o rfl
      simp only at he
      generalize hee : setupPipe wo false a.stderr = ze at he
      obtain ⟨re, we⟩ := ze
      obtain ⟨e1, e2, e3⟩ := setupPipe_spec o1 hee
      cases re with
      | none =>
        simp only [Prod.mk.injEq] at he
        obtain ⟨rfl, rfl⟩ := he
        exact ⟨e1, fun p hp => by cases hp⟩
      | some e =>
        obtain ⟨e3, e4, e5⟩ := e3 e rfl
        simp only at he
        have hl : Later w we 0 0 0 := (i2.trans o2).trans e2
        have hperm : (openIn we.log).Perm (i.held ++ (o.held ++ (e.held ++ openIn w.log))) := by
          refine e3.trans ?_
          refine ((o3.trans ((i3.append_left _))).append_left _).trans ?_
          grind [List.perm_append_comm]
        split at he
        · simp only [Prod.mk.injEq] at he
          obtain ⟨rfl, rfl⟩ := he
          obtain ⟨n1, n2⟩ := e1.note (x := .notCreated k) (by simp) (by simp) (e1.own.cons (by simp))
          refine ⟨n1, ?_⟩
          intro p' hp'
          cases hp'
          refine ⟨?_, (fun hh => by cases hh), fun _ => ⟨?_, ?_, hp1, hp2⟩⟩
          · simp only [n2, Proc.held, hp1, hp2]
            refine hperm.trans ?_
            simp [List.append_assoc]
          · refine ⟨hl.next, ?_, ?_, ?_, ?_, ?_⟩
            · intro x j hx hlt
              exact hl.old x j (by simpa using hx) hlt
            · intro x j hx
              exact List.mem_cons_of_mem _ (hl.keeps x j hx)
            · simpa [createdIn] using hl.nCreated
            · have := hl.nFails
              simp [failures] at this ⊢
              omega
            · simpa [endedIn] using hl.nEnded
          · simp only [Proc.held, hp1, hp2, List.length_append]
            have := i.held_length
            have := o.held_length
            have := e.held_length
            simp
            omega
        · have hown : Own (.created k i.hRead o.hWrite e.hWrite :: we.log) := by
            refine e1.own.create ?_
            intro hf x hx hin
            have hmem := hperm.mem_iff.1 hx
            have hff : failures w.log = 0 := by have := hl.nFails; omega
            simp only [List.mem_append, Pipe.held, Option.mem_toList] at hmem
            rcases hmem with (hm | hm) | (hm | hm) | (hm | hm) | hm
            · exact Or.inl hm.symm
            · have := e1.flag _ _ _ hin (e2.keeps _ _ (o2.keeps _ _ (i5 x hm).2)); cases this
            · have := e1.flag _ _ _ hin (e2.keeps _ _ (o4 x hm).2); cases this
            · exact Or.inr (Or.inl hm.symm)
            · have := e1.flag _ _ _ hin (e4 x hm).2; cases this
            · exact Or.inr (Or.inr hm.symm)
            · obtain ⟨j, hj⟩ := h.sub x hm
              have := hl.old x true hin (h.lt _ _ hj)
              exact absurd this (hq hff x hm)
          obtain ⟨n1, n2⟩ := e1.note (x := .created k i.hRead o.hWrite e.hWrite) (by simp) (by simp) hown
          have hln : Later w { we with log := .created k i.hRead o.hWrite e.hWrite :: we.log } 1 0 0 := by
            refine ⟨hl.next, ?_, ?_, ?_, ?_, ?_⟩
            · intro x j hx hlt
              exact hl.old x j (by simpa using hx) hlt
            · intro x j hx
              exact List.mem_cons_of_mem _ (hl.keeps x j hx)
            · simpa [createdIn] using hl.nCreated
            · simpa [failures] using hl.nFails
            · simpa [endedIn] using hl.nEnded
          generalize hwn : ({ we with log := .created k i.hRead o.hWrite e.hWrite :: we.log } : W) = wn at he n1 hln
          have hnn : we.next = wn.next := by rw [← hwn]
          have hno : openIn wn.log = openIn we.log := by rw [← hwn]; exact n2
          have hkn : ∀ x j, Os.opened x j ∈ we.log → Os.opened x j ∈ wn.log := by
            intro x j hx; rw [← hwn]; exact List.mem_cons_of_mem _ hx
          obtain ⟨a1, a2, a3, a4, _⟩ := n1.openHandle false
          obtain ⟨b1, b2, b3, b4, _⟩ := a1.openHandle false
          generalize hwa : openHandle wn false = wa at he a1 a2 a3 a4 b1 b2 b3 b4
          have hwan : wa.next = wn.next + 1 := by rw [← hwa]; rfl
          generalize hwb : openHandle wa false = wb at he b1 b2 b3 b4
          rw [a3, hno] at b3
          have hpb : (openIn wb.log).Perm (i.hRead.toList ++ (i.hWrite.toList ++ (o.hWrite.toList ++ (e.hWrite.toList ++
              (o.hRead.toList ++ (e.hRead.toList ++ (wn.next :: wa.next :: openIn w.log))))))) := by
            rw [b3]
            refine ((hperm.cons wn.next).cons wa.next).trans ?_
            grind [Pipe.held]
          obtain ⟨c1, c2, c3⟩ := b1.closeHandle hpb
          obtain ⟨d1, d2, d3⟩ := c1.closeHandle c3
          obtain ⟨f1, f2, f3⟩ := d1.closeHandle d3
          obtain ⟨g1, g2, g3⟩ := f1.closeHandle f3
          have hlast : Later wn _ _ _ _ := ((((a2.trans b2).trans c2).trans d2).trans f2).trans g2
          have hlate := hln.trans hlast
          simp only [Prod.mk.injEq] at he
          obtain ⟨rfl, rfl⟩ := he
          refine ⟨g1, ?_⟩
          intro p' hp'
          cases hp'
          refine ⟨?_, fun _ => ⟨by simpa using hlate, ?_, ?_, rfl, rfl, rfl⟩, fun hh => by cases hh⟩
          · refine g3.trans (List.Perm.of_eq ?_)
            simp [Proc.held, Pipe.held, hwan, hnn]
          · simp only [Proc.held, Pipe.held, List.length_append]
            rcases o.hRead with _ | _ <;> rcases e.hRead with _ | _ <;> simp
          · intro x hx hin
            simp only [Proc.held, Pipe.held, Option.toList_none, Option.toList_some, List.mem_append, List.append_nil,
              List.not_mem_nil, Option.mem_toList, List.mem_singleton, false_or] at hx
            rcases hx with hx | hx | hx | hx
            · have := g1.flag _ _ _ hin (hlast.keeps _ _ (hkn _ _ (e2.keeps _ _ (o4 x hx).2))); cases this
            · have := g1.flag _ _ _ hin (hlast.keeps _ _ (hkn _ _ (e4 x hx).2)); cases this
            · subst hx
              rw [hnn] at hin
              have := g1.flag _ _ _ hin (g2.keeps _ _ (f2.keeps _ _ (d2.keeps _ _ (c2.keeps _ _ (b2.keeps _ _ a4))))); cases this
            · subst hx
              have := g1.flag _ _ _ hin (g2.keeps _ _ (f2.keeps _ _ (d2.keeps _ _ (c2.keeps _ _ b4)))); cases this

/-- What an executor holds between two events. -/
structure PInv (p : Proc) : Prop where
  idle : p.running = false → p = {}
  four : p.held.length ≤ 4
  in_ : p.stdin = {}
  out : p.stdout.hWrite = none
  err : p.stderr.hWrite = none

/-- `executeCurrentCommandLine` of an executor that holds no handles: what it opened in vain is left open. -/
theorem command_spec {w w' : W} {k : Nat} {direct : Option Answers} {shell : Answers} {r : Option Proc} (h : WInv w) (hq : Quiet w)
    {p : Proc} (hp1 : p.hProcess = none) (hp2 : p.hThread = none) (he : command k w p direct shell = (r, w')) :
    WInv w' ∧ ∀ p', r = some p' → p'.running = true ∧ PInv p' ∧ (∀ x ∈ p'.held, .opened x true ∉ w'.log) ∧
      ∃ (f : Nat) (L : List Nat), Later w w' 1 f 0 ∧ L.length ≤ 6 * f ∧ (openIn w'.log).Perm (p'.held ++ (L ++ openIn w.log)) := by
  unfold command at he
  have key : ∀ {w1 : W} {p1 : Proc} {f : Nat} {L : List Nat}, WInv w1 → Quiet w1 → p1.hProcess = none → p1.hThread = none →
      Later w w1 0 f 0 → L.length ≤ 6 * f → (openIn w1.log).Perm (L ++ openIn w.log) →
      (match start k w1 p1 shell with
        | (none, w) => (none, w)
        | (some p, w) => if p.running then (some p, w) else (none, w)) = (r, w') →
      WInv w' ∧ ∀ p', r = some p' → p'.running = true ∧ PInv p' ∧ (∀ x ∈ p'.held, .opened x true ∉ w'.log) ∧
        ∃ (f : Nat) (L : List Nat), Later w w' 1 f 0 ∧ L.length ≤ 6 * f ∧ (openIn w'.log).Perm (p'.held ++ (L ++ openIn w.log)) := by
    intro w1 p1 f L h1 hq1 hn1 hn2 hl hlen hperm he
    generalize hs : start k w1 p1 shell = z at he
    obtain ⟨r2, w2⟩ := z
    obtain ⟨s1, s2⟩ := start_spec h1 hq1 hn1 hn2 hs
    cases r2 with
    | none =>
      simp only [Prod.mk.injEq] at he
      obtain ⟨rfl, rfl⟩ := he
      exact ⟨s1, fun p hp => by cases hp⟩
    | some p2 =>
      simp only at he
      split at he
      · next hrun =>
        simp only [Prod.mk.injEq] at he
        obtain ⟨rfl, rfl⟩ := he
        refine ⟨s1, ?_⟩
        intro p' hp'
        cases hp'
        obtain ⟨q1, q2, _⟩ := s2 p2 rfl
        obtain ⟨q3, q4, q5, q6, q7, q8⟩ := q2 hrun
        exact ⟨hrun, ⟨(fun hh => by rw [hrun] at hh; cases hh), q4, q6, q7, q8⟩, q5, f, L, by simpa using hl.trans q3, hlen, q1.trans (hperm.append_left _)⟩
      · simp only [Prod.mk.injEq] at he
        obtain ⟨rfl, rfl⟩ := he
        exact ⟨s1, fun p hp => by cases hp⟩
  cases direct with
  | none => exact key (f := 0) (L := []) h hq hp1 hp2 (Later.refl w) (by simp) (List.Perm.refl _) he
  | some a =>
    simp only at he
    generalize hs : start k w p a = z at he
    obtain ⟨r1, w1⟩ := z
    obtain ⟨s1, s2⟩ := start_spec h hq hp1 hp2 hs
    cases r1 with
    | none =>
      simp only [Prod.mk.injEq] at he
      obtain ⟨rfl, rfl⟩ := he
      exact ⟨s1, fun p hp => by cases hp⟩
    | some p1 =>
      obtain ⟨q1, q2, q3⟩ := s2 p1 rfl
      simp only at he
      split at he
      · next hrun =>
        simp only [Prod.mk.injEq] at he
        obtain ⟨rfl, rfl⟩ := he
        refine ⟨s1, ?_⟩
        intro p' hp'
        cases hp'
        obtain ⟨q3, q4, q5, q6, q7, q8⟩ := q2 hrun
        exact ⟨hrun, ⟨(fun hh => by rw [hrun] at hh; cases hh), q4, q6, q7, q8⟩, q5, 0, [], by simpa using q3, by simp, by simpa using q1⟩
      · next hrun =>
        obtain ⟨q4, q5, q6, q7⟩ := q3 (by simpa using hrun)
        refine key (f := 1) (L := p1.held) s1 ?_ q6 q7 q4 (by omega) q1 he
        intro hf
        have := q4.nFails
        omega

/-- `Process::onProcessFinished` of an executor whose handles are open. -/
theorem finished_spec {w : W} {k : Nat} {p : Proc} {R : List Nat} (h : WInv w) (hp : (openIn w.log).Perm (p.held ++ R))
    (h1 : p.stdin = {}) (h2 : p.stdout.hWrite = none) (h3 : p.stderr.hWrite = none) :
    WInv (finished k w p).2 ∧ Later w (finished k w p).2 0 0 1 ∧ (openIn (finished k w p).2.log).Perm R ∧ (finished k w p).1 = {} := by
  obtain ⟨si, so, se, hP, hT, run⟩ := p
  simp only at h1 h2 h3
  subst h1
  obtain ⟨sr, sw⟩ := so
  obtain ⟨er, ew⟩ := se
  simp only at h2 h3
  subst h2 h3
  have hp' : (openIn w.log).Perm (sr.toList ++ (er.toList ++ (hP.toList ++ (hT.toList ++ R)))) := by
    refine hp.trans (List.Perm.of_eq ?_)
    simp [Proc.held, Pipe.held]
  obtain ⟨c1, c2, c3⟩ := h.closeHandle hp'
  obtain ⟨d1, d2, d3⟩ := c1.closeHandle c3
  obtain ⟨f1, f2, f3⟩ := d1.closeHandle d3
  obtain ⟨g1, g2, g3⟩ := f1.closeHandle f3
  obtain ⟨n1, n2⟩ := g1.note (x := .ended k) (by simp) (by simp) (g1.own.cons (by simp))
  have hl := ((c2.trans d2).trans f2).trans g2
  refine ⟨n1, ?_, ?_, rfl⟩
  · refine ⟨hl.next, ?_, ?_, ?_, ?_, ?_⟩
    · intro x j hx hlt
      exact hl.old x j (by simpa [finished] using hx) hlt
    · intro x j hx
      exact List.mem_cons_of_mem _ (hl.keeps x j hx)
    · simpa [finished, createdIn] using hl.nCreated
    · simpa [finished, failures] using hl.nFails
    · simpa [finished, endedIn] using hl.nEnded
  · simp only [finished, n2]
    exact g3

/-- The state of jom between two events. -/
structure SInv (s : Sys) : Prop where
  w : WInv s.w
  procs : s.fatal = false → ∀ p ∈ s.procs, PInv p
  open_ : s.fatal = false → ∃ L : List Nat, L.length ≤ 6 * failures s.w.log ∧
    (openIn s.w.log).Perm (s.procs.flatMap Proc.held ++ L)
  shut : s.fatal = false → ∀ p ∈ s.procs, ∀ h ∈ p.held, .opened h true ∉ s.w.log
  running : s.fatal = false → runningIn s.w.log = (s.procs.countP (·.running) : Nat)

theorem flatMap_set {p : Proc} : ∀ {ps : List Proc} {k : Nat}, ps[k]? = some p → ∃ R : List Nat, ∃ n : Nat,
    (ps.flatMap Proc.held).Perm (p.held ++ R) ∧ ps.countP (·.running) = n + p.running.toNat ∧
    ∀ q : Proc, ((ps.set k q).flatMap Proc.held).Perm (q.held ++ R) ∧ (ps.set k q).countP (·.running) = n + q.running.toNat := by
  intro ps
  induction ps with
  | nil => intro k h; cases h
  | cons a ps ih =>
    intro k h
    have hc : ∀ q : Proc, (if q.running = true then 1 else 0) = q.running.toNat := by
      intro q; cases q.running <;> rfl
    cases k with
    | zero =>
      cases h
      refine ⟨ps.flatMap Proc.held, ps.countP (·.running), ?_, ?_, fun q => ⟨?_, ?_⟩⟩
      · simp
      · rw [List.countP_cons, hc]
      · simp
      · rw [List.set_cons_zero, List.countP_cons, hc]
    | succ k =>
      obtain ⟨R, n, h1, h2, h3⟩ := ih (k := k) (by simpa using h)
      refine ⟨a.held ++ R, n + a.running.toNat, ?_, ?_, fun q => ⟨?_, ?_⟩⟩
      · simp only [List.flatMap_cons]
        refine (h1.append_left _).trans ?_
        grind
      · rw [List.countP_cons, hc, h2]; omega
      · simp only [List.set_cons_succ, List.flatMap_cons]
        refine ((h3 q).1.append_left _).trans ?_
        grind
      · rw [List.set_cons_succ, List.countP_cons, hc, (h3 q).2]; omega

theorem SInv.quiet {s : Sys} (h : SInv s) (hf : s.fatal = false) : Quiet s.w := by
  intro h0 x hx
  obtain ⟨L, h1, h2⟩ := h.open_ hf
  rw [h0] at h1
  have hL : L = [] := List.length_eq_zero_iff.1 (by omega)
  subst hL
  have hm := h2.mem_iff.1 hx
  rw [List.append_nil, List.mem_flatMap] at hm
  obtain ⟨p, hp, hxp⟩ := hm
  exact h.shut hf p hp x hxp

theorem SInv.init (jobs : Nat) : SInv (init jobs) := by
  refine ⟨⟨?_, ?_, ?_, ?_, ?_, ?_, ?_, rfl⟩, ?_, ?_, ?_, ?_⟩
  · intro h i hh; cases hh
  · exact List.nodup_nil
  · intro h hh; cases hh
  · intro h; exact Nat.zero_le _
  · intro h hh; cases hh
  · intro l2 l1 k i o e he
    cases l2 <;> cases he
  · intro h i j hh; cases hh
  · intro _ p hp
    rw [List.eq_of_mem_replicate hp]
    exact ⟨fun _ => rfl, by simp [Proc.held, Pipe.held], rfl, rfl, rfl⟩
  · intro _
    refine ⟨[], by simp, ?_⟩
    have : (List.replicate jobs ({} : Proc)).flatMap Proc.held = [] := by
      rw [List.flatMap_eq_nil_iff]
      intro p hp
      rw [List.eq_of_mem_replicate hp]
      rfl
    simp [Handles.init, this, openIn]
  · intro _ p hp x hx hh; cases hh
  · intro _
    simp [Handles.init, runningIn, createdIn, endedIn, List.countP_replicate]

theorem SInv.step {s s' : Sys} {ev : Event} (h : SInv s) (hs : step s ev = some s') : SInv s' := by
  cases ev with
  | command k direct shell =>
    simp only [Handles.step] at hs
    split at hs
    · cases hs
    · next p hp =>
      split at hs
      · cases hs
      · next hcond =>
        simp only [Bool.or_eq_true, not_or, Bool.not_eq_true] at hcond
        obtain ⟨hf, hrun⟩ := hcond
        have hpm := List.mem_of_getElem? hp
        have hpe := ((h.procs hf) p hpm).idle hrun
        subst hpe
        generalize hc : command k s.w {} direct shell = z at hs
        obtain ⟨r, w'⟩ := z
        obtain ⟨c1, c2⟩ := command_spec h.w (h.quiet hf) rfl rfl hc
        cases r with
        | none =>
          simp only [Option.some.injEq] at hs
          subst hs
          obtain ⟨n1, _⟩ := c1.note (x := .fatal) (by simp) (by simp) (c1.own.cons (by simp))
          exact ⟨n1, (fun hh => by cases hh), (fun hh => by cases hh), (fun hh => by cases hh), (fun hh => by cases hh)⟩
        | some q =>
          simp only [Option.some.injEq] at hs
          subst hs
          obtain ⟨q1, q2, q3, f, L', q4, q5, q6⟩ := c2 q rfl
          obtain ⟨R, n, r1, r2, r3⟩ := flatMap_set hp
          obtain ⟨r3, r4⟩ := r3 q
          obtain ⟨L, l1, l2⟩ := h.open_ hf
          refine ⟨c1, ?_, ?_, ?_, ?_⟩
          · intro _ x hx
            rcases List.mem_or_eq_of_mem_set hx with hx | rfl
            · exact h.procs hf x hx
            · exact q2
          · intro _
            refine ⟨L' ++ L, ?_, ?_⟩
            · have := q4.nFails
              rw [List.length_append]
              simp only
              omega
            · refine q6.trans ?_
              have e0 : Proc.held {} = [] := rfl
              rw [e0, List.nil_append] at r1
              have : (openIn s.w.log).Perm (R ++ L) := l2.trans (r1.append_right _)
              refine ((this.append_left _).append_left _).trans ?_
              refine List.Perm.trans ?_ (r3.append_right _).symm
              grind
          · intro _ x hx y hy hin
            rcases List.mem_or_eq_of_mem_set hx with hx | rfl
            · have hyo : y ∈ openIn s.w.log := l2.mem_iff.2 (List.mem_append_left _ (List.mem_flatMap.2 ⟨x, hx, hy⟩))
              obtain ⟨j, hj⟩ := h.w.sub y hyo
              exact h.shut hf x hx y hy (q4.old y true hin (h.w.lt _ _ hj))
            · exact q3 y hy hin
          · intro _
            have h5 := h.running hf
            have h6 := q4.nCreated
            have h7 := q4.nEnded
            simp only [runningIn] at h5 ⊢
            rw [r4, q1, h6, h7]
            rw [r2] at h5
            simp only [Bool.toNat_false, Bool.toNat_true] at h5 ⊢
            omega
  | finished k =>
    simp only [Handles.step] at hs
    split at hs
    · cases hs
    · next p hp =>
      split at hs
      · cases hs
      · next hcond =>
        simp only [Bool.or_eq_true, not_or, Bool.not_eq_true, Bool.not_eq_eq_eq_not, Bool.not_true, Bool.not_eq_false] at hcond
        obtain ⟨hf, hrun⟩ := hcond
        have hpm := List.mem_of_getElem? hp
        have hpi := (h.procs hf) p hpm
        obtain ⟨R, n, r1, r2, r3⟩ := flatMap_set hp
        obtain ⟨L, l1, l2⟩ := h.open_ hf
        have hperm : (openIn s.w.log).Perm (p.held ++ (R ++ L)) := by
          refine l2.trans ((r1.append_right _).trans (List.Perm.of_eq ?_))
          simp
        obtain ⟨f1, f2, f3, f4⟩ := finished_spec (k := k) h.w hperm hpi.in_ hpi.out hpi.err
        simp only [Option.some.injEq] at hs
        subst hs
        rw [f4]
        obtain ⟨r3, r4⟩ := r3 {}
        refine ⟨f1, ?_, ?_, ?_, ?_⟩
        · intro _ x hx
          rcases List.mem_or_eq_of_mem_set hx with hx | rfl
          · exact h.procs hf x hx
          · exact ⟨fun _ => rfl, by simp [Proc.held, Pipe.held], rfl, rfl, rfl⟩
        · intro _
          refine ⟨L, ?_, ?_⟩
          · have := f2.nFails
            simp only
            omega
          · exact f3.trans (r3.append_right _).symm
        · intro _ x hx y hy hin
          rcases List.mem_or_eq_of_mem_set hx with hx | rfl
          · have hyo : y ∈ openIn s.w.log := l2.mem_iff.2 (List.mem_append_left _ (List.mem_flatMap.2 ⟨x, hx, hy⟩))
            obtain ⟨j, hj⟩ := h.w.sub y hyo
            exact h.shut hf x hx y hy (f2.old y true hin (h.w.lt _ _ hj))
          · cases hy
        · intro _
          have h5 := h.running hf
          have h6 := f2.nCreated
          have h7 := f2.nEnded
          simp only [runningIn] at h5 ⊢
          rw [r4, h6, h7]
          rw [r2, hrun] at h5
          simp only [Bool.toNat_false, Bool.toNat_true] at h5 ⊢
          omega

theorem Reachable.inv {jobs : Nat} {s : Sys} (h : Reachable jobs s) : SInv s := by
  obtain ⟨es, he⟩ := h
  have key : ∀ (es : List Event) (s s' : Sys), SInv s → run s es = some s' → SInv s' := by
    intro es
    induction es with
    | nil => intro s s' h hr; simp only [run, Option.some.injEq] at hr; subst hr; exact h
    | cons e es ih =>
      intro s s' h hr
      simp only [run, Option.bind_eq_some_iff] at hr
      obtain ⟨s1, h1, h2⟩ := hr
      exact ih s1 s' (h.step h1) h2
  exact key es _ s (.init jobs) he

end Jom.Handles

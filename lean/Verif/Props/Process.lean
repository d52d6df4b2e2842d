/-
Properties of the output and the environment of commands: C40, C46, C58.
-/
import Verif.Model.Process
import Mathlib.Data.List.Basic

namespace Jom.Props
open Jom.Proc

/-! ### C40: buffered output -/

/-- The chunks of one channel. -/
def onChan (ch : Chan) (l : List (Chan × Chunk)) : List Chunk := (l.filter fun x => x.1 = ch).map (·.2)

/-- Order of output: by time, at the same time standard output first. -/
def Before (a b : Chan × Chunk) : Prop :=
  a.2.time < b.2.time ∨ (a.2.time = b.2.time ∧ ¬ (a.1 = .err ∧ b.1 = .out))

/-- The time stamps of a channel do not decrease. -/
def Ascending (l : List Chunk) : Prop := l.Pairwise fun a b => a.time ≤ b.time

theorem onChan_append (ch : Chan) (a b : List (Chan × Chunk)) : onChan ch (a ++ b) = onChan ch a ++ onChan ch b := by
  simp [onChan]

theorem onChan_cons (ch : Chan) (x : Chan × Chunk) (b : List (Chan × Chunk)) :
    onChan ch (x :: b) = (if x.1 = ch then [x.2] else []) ++ onChan ch b := by
  unfold onChan
  by_cases h : x.1 = ch <;> simp [h]

theorem printLoop_chan : ∀ (n : Nat) (o e : List Chunk), o.length + e.length ≤ n →
    onChan .out (printLoop n o e) = o ∧ onChan .err (printLoop n o e) = e := by
  intro n
  induction n with
  | zero =>
    intro o e h
    have ho : o = [] := List.length_eq_zero_iff.1 (by omega)
    have he : e = [] := List.length_eq_zero_iff.1 (by omega)
    subst ho he
    exact ⟨rfl, rfl⟩
  | succ n ih =>
    intro o e h
    match o, e with
    | [], [] => exact ⟨rfl, rfl⟩
    | [], b :: e =>
      simp only [List.length_cons, List.length_nil] at h
      simp only [printLoop, onChan_cons]
      obtain ⟨h1, h2⟩ := ih [] e (by simp; omega)
      simp [h1, h2]
    | a :: o, [] =>
      simp only [List.length_cons, List.length_nil] at h
      simp only [printLoop, onChan_cons]
      obtain ⟨h1, h2⟩ := ih o [] (by simp; omega)
      simp [h1, h2]
    | a :: o, b :: e =>
      simp only [List.length_cons] at h
      simp only [printLoop]
      split
      · simp only [onChan_cons]
        obtain ⟨h1, h2⟩ := ih (a :: o) e (by simp; omega)
        simp [h1, h2]
      · simp only [onChan_cons]
        obtain ⟨h1, h2⟩ := ih o (b :: e) (by simp; omega)
        simp [h1, h2]

theorem printLoop_mem : ∀ (n : Nat) (o e : List Chunk) (x : Chan × Chunk), x ∈ printLoop n o e →
    (x.1 = .out ∧ x.2 ∈ o) ∨ (x.1 = .err ∧ x.2 ∈ e) := by
  intro n
  induction n with
  | zero => intro o e x h; cases h
  | succ n ih =>
    intro o e x h
    match o, e with
    | [], [] => cases h
    | [], b :: e =>
      simp only [printLoop, List.mem_cons] at h
      rcases h with rfl | h
      · exact .inr ⟨rfl, by simp⟩
      · rcases ih _ _ _ h with h | h
        · cases h.2
        · exact .inr ⟨h.1, by simp [h.2]⟩
    | a :: o, [] =>
      simp only [printLoop, List.mem_cons] at h
      rcases h with rfl | h
      · exact .inl ⟨rfl, by simp⟩
      · rcases ih _ _ _ h with h | h
        · exact .inl ⟨h.1, by simp [h.2]⟩
        · cases h.2
    | a :: o, b :: e =>
      simp only [printLoop] at h
      split at h
      · rcases List.mem_cons.1 h with rfl | h
        · exact .inr ⟨rfl, by simp⟩
        · rcases ih _ _ _ h with h | h
          · exact .inl h
          · exact .inr ⟨h.1, by simp [h.2]⟩
      · rcases List.mem_cons.1 h with rfl | h
        · exact .inl ⟨rfl, by simp⟩
        · rcases ih _ _ _ h with h | h
          · exact .inl ⟨h.1, by simp [h.2]⟩
          · exact .inr h

theorem printLoop_sorted : ∀ (n : Nat) (o e : List Chunk), Ascending o → Ascending e →
    (printLoop n o e).Pairwise Before := by
  intro n
  induction n with
  | zero => intro o e _ _; exact List.Pairwise.nil
  | succ n ih =>
    intro o e ho he
    match o, e with
    | [], [] => exact List.Pairwise.nil
    | [], b :: e =>
      obtain ⟨hb, he'⟩ := List.pairwise_cons.1 he
      refine List.Pairwise.cons ?_ (ih [] e ho he')
      intro x hx
      rcases printLoop_mem _ _ _ _ hx with h | h
      · cases h.2
      · have := hb _ h.2
        unfold Before; simp only [h.1]; grind
    | a :: o, [] =>
      obtain ⟨ha, ho'⟩ := List.pairwise_cons.1 ho
      refine List.Pairwise.cons ?_ (ih o [] ho' he)
      intro x hx
      rcases printLoop_mem _ _ _ _ hx with h | h
      · have := ha _ h.2
        unfold Before; grind
      · cases h.2
    | a :: o, b :: e =>
      obtain ⟨ha, ho'⟩ := List.pairwise_cons.1 ho
      obtain ⟨hb, he'⟩ := List.pairwise_cons.1 he
      simp only [printLoop]
      split
      · rename_i hlt
        refine List.Pairwise.cons ?_ (ih (a :: o) e ho he')
        intro x hx
        rcases printLoop_mem _ _ _ _ hx with h | h
        · unfold Before
          rcases List.mem_cons.1 h.2 with h2 | h2
          · rw [h2]; simp only; omega
          · have := ha _ h2; simp only; omega
        · have := hb _ h.2
          unfold Before; simp only [h.1]; grind
      · rename_i hlt
        refine List.Pairwise.cons ?_ (ih o (b :: e) ho' he)
        intro x hx
        rcases printLoop_mem _ _ _ _ hx with h | h
        · have := ha _ h.2
          unfold Before; grind
        · unfold Before
          rcases List.mem_cons.1 h.2 with h2 | h2
          · rw [h2, h.1]; simp only; grind
          · have := hb _ h2; rw [h.1]; simp only; grind

/-- **C40**, one flush: every buffered chunk of both channels is written exactly once, each channel in its order, the two
merged by time stamp, and nothing stays in the buffers. -/
theorem C40_flush (s : Out) (ho : Ascending s.outBuf) (he : Ascending s.errBuf) :
    ∃ w, (printBuffered s).written = s.written ++ w ∧ onChan .out w = s.outBuf ∧ onChan .err w = s.errBuf ∧
      w.Pairwise Before ∧ (printBuffered s).outBuf = [] ∧ (printBuffered s).errBuf = [] := by
  obtain ⟨h1, h2⟩ := printLoop_chan _ s.outBuf s.errBuf (Nat.le_refl _)
  exact ⟨_, rfl, h1, h2, printLoop_sorted _ _ _ ho he, rfl, rfl⟩

/-- Two lists that agree on both channels and are in the order above are the same: the flush has only one correct result. -/
theorem C40_unique : ∀ (v w : List (Chan × Chunk)), v.Pairwise Before → w.Pairwise Before →
    onChan .out v = onChan .out w → onChan .err v = onChan .err w → v = w := by
  intro v
  induction v with
  | nil =>
    intro w _ _ h1 h2
    cases w with
    | nil => rfl
    | cons x w =>
      obtain ⟨ch, c⟩ := x
      cases ch
      · simp [onChan] at h1
      · simp [onChan] at h2
  | cons x v ih =>
    intro w hv hw h1 h2
    cases w with
    | nil =>
      obtain ⟨ch, c⟩ := x
      cases ch
      · simp [onChan] at h1
      · simp [onChan] at h2
    | cons y w =>
      obtain ⟨hx, hv'⟩ := List.pairwise_cons.1 hv
      obtain ⟨hy, hw'⟩ := List.pairwise_cons.1 hw
      obtain ⟨cx, x⟩ := x
      obtain ⟨cy, y⟩ := y
      have hmem : ∀ (l : List (Chan × Chunk)) (ch : Chan) (c : Chunk), c ∈ onChan ch l → (ch, c) ∈ l := by
        intro l ch c h
        simp only [onChan, List.mem_map, List.mem_filter, decide_eq_true_eq] at h
        obtain ⟨⟨a, b⟩, ⟨h, e1⟩, e2⟩ := h
        simp only at e1 e2
        rw [← e1, ← e2]; exact h
      have conflict : ∀ (a b : Chunk), ¬ (Before (.out, a) (.err, b) ∧ Before (.err, b) (.out, a)) := by
        intro a b
        simp only [Before]
        grind
      cases cx <;> cases cy
      · simp only [onChan_cons, if_true] at h1 h2
        simp only [List.singleton_append, List.cons.injEq] at h1
        simp only [reduceCtorEq, if_false, List.nil_append] at h2
        rw [h1.1, ih w hv' hw' h1.2 h2]
      · simp only [onChan_cons, if_true, reduceCtorEq, if_false, List.nil_append, List.singleton_append] at h1 h2
        exfalso
        have m1 := hmem w .out x (by rw [← h1]; simp)
        have m2 := hmem v .err y (by rw [h2]; simp)
        exact conflict x y ⟨hx _ m2, hy _ m1⟩
      · simp only [onChan_cons, if_true, reduceCtorEq, if_false, List.nil_append, List.singleton_append] at h1 h2
        exfalso
        have m1 := hmem w .err x (by rw [← h2]; simp)
        have m2 := hmem v .out y (by rw [h1]; simp)
        exact conflict y x ⟨hy _ m1, hx _ m2⟩
      · simp only [onChan_cons, if_true, reduceCtorEq, if_false, List.nil_append, List.singleton_append] at h1 h2
        simp only [List.cons.injEq] at h2
        rw [h2.1, ih w hv' hw' h1 h2.2]

example : (printBuffered { outBuf := [⟨1, c!"a"⟩, ⟨3, c!"c"⟩, ⟨3, c!"d"⟩], errBuf := [⟨2, c!"X"⟩, ⟨3, c!"Y"⟩] }).written =
    [(.out, ⟨1, c!"a"⟩), (.err, ⟨2, c!"X"⟩), (.out, ⟨3, c!"c"⟩), (.out, ⟨3, c!"d"⟩), (.err, ⟨3, c!"Y"⟩)] := by decide

/-- The chunks given by a sequence of operations, in order. -/
def given : List Op → List (Chan × Chunk)
  | [] => []
  | .chunk ch c :: ops => (ch, c) :: given ops
  | _ :: ops => given ops

theorem given_snoc (ops : List Op) (op : Op) : given (ops ++ [op]) =
    given ops ++ (match op with | .chunk ch c => [(ch, c)] | _ => []) := by
  induction ops with
  | nil => cases op <;> rfl
  | cons a ops ih => cases a <;> simp [given, ih]

/-- Nothing is buffered in direct mode; the rest is written or buffered. -/
structure Kept40 (s : Out) (g : List (Chan × Chunk)) : Prop where
  direct : s.buffered = false → s.outBuf = [] ∧ s.errBuf = []
  out : onChan .out s.written ++ s.outBuf = onChan .out g
  err : onChan .err s.written ++ s.errBuf = onChan .err g

theorem kept_print {s : Out} {g : List (Chan × Chunk)} (b : Bool) (h1 : onChan .out s.written ++ s.outBuf = onChan .out g)
    (h2 : onChan .err s.written ++ s.errBuf = onChan .err g) : Kept40 (printBuffered { s with buffered := b }) g := by
  obtain ⟨c1, c2⟩ := printLoop_chan _ s.outBuf s.errBuf (Nat.le_refl _)
  refine ⟨fun _ => ⟨rfl, rfl⟩, ?_, ?_⟩
  · simp [printBuffered, onChan_append, c1, h1]
  · simp [printBuffered, onChan_append, c2, h2]

theorem kept_run (ops : List Op) : ∀ (s : Out) (g : List (Chan × Chunk)), Kept40 s g → Kept40 (s.run ops) (g ++ given ops) := by
  induction ops with
  | nil => intro s g h; simpa [Out.run, given] using h
  | cons op ops ih =>
    intro s g h
    have step : Kept40 (s.step op) (g ++ given [op]) := by
      cases op with
      | chunk ch c =>
        simp only [Out.step, Proc.chunk, given]
        split
        · rename_i hb
          have hne : ∀ {P : Prop}, s.buffered = false → P := by
            intro P e; rw [e] at hb; cases hb
          cases ch
          · refine ⟨fun e => hne e, ?_, ?_⟩
            · simp only [onChan_append, onChan_cons, if_true, ← List.append_assoc, h.out]
              simp [onChan]
            · simp [onChan_append, onChan_cons, h.err]
              rfl
          · refine ⟨fun e => hne e, ?_, ?_⟩
            · simp [onChan_append, onChan_cons, h.out]
              rfl
            · simp only [onChan_append, onChan_cons, if_true, ← List.append_assoc, h.err]
              simp [onChan]
        · rename_i hb
          have hd := h.direct (by simpa using hb)
          refine ⟨fun _ => hd, ?_, ?_⟩
          · have := h.out
            simp only [hd.1, List.append_nil] at this ⊢
            rw [onChan_append, onChan_append, this]
          · have := h.err
            simp only [hd.2, List.append_nil] at this ⊢
            rw [onChan_append, onChan_append, this]
      | setBuffered b =>
        simp only [Out.step, Proc.setBuffered, given, List.append_nil]
        split
        · exact h
        · split
          · exact kept_print b h.out h.err
          · rename_i hb
            refine ⟨fun e => ?_, h.out, h.err⟩
            simp only [Bool.not_eq_true', Bool.not_eq_false] at hb
            simp only at e
            rw [hb] at e; cases e
      | finished =>
        simp only [Out.step, given, List.append_nil]
        exact kept_print s.buffered h.out h.err
    have := ih _ _ step
    rw [List.append_assoc] at this
    have e : given [op] ++ given ops = given (op :: ops) := by cases op <;> rfl
    rw [e] at this
    exact this

/-- **C40**, all histories: whatever is buffered, written directly or flushed in between, when the output has been
flushed every chunk of each channel has been written exactly once and in its order. -/
theorem C40_complete (ops : List Op) (ch : Chan) :
    onChan ch (Out.run {} (ops ++ [.finished])).written = onChan ch (given ops) := by
  have h := kept_run ops {} [] ⟨fun _ => ⟨rfl, rfl⟩, rfl, rfl⟩
  have e : Out.run {} (ops ++ [.finished]) = printBuffered (Out.run {} ops) := by simp [Out.run, Out.step]
  have h2 := kept_print (s := Out.run {} ops) (Out.run {} ops).buffered h.out h.err
  rw [e]
  cases ch
  · have := h2.out; simpa [printBuffered] using this
  · have := h2.err; simpa [printBuffered] using this

/-- **C40**, all histories: with a clock that does not run backwards, all output of a process — written directly or
flushed — appears in the order of time. -/
theorem C40_order (ops : List Op) (h : (given ops).Pairwise fun a b => a.2.time ≤ b.2.time) :
    (Out.run {} ops).written.Pairwise fun a b => a.2.time ≤ b.2.time := by
  -- all written chunks are older than all buffered ones, and the buffers are ascending
  have key : ∀ (ops : List Op) (s : Out) (g : List (Chan × Chunk)), Kept40 s g →
      (s.written.Pairwise fun a b => a.2.time ≤ b.2.time) →
      (∀ a ∈ s.written, ∀ b, b ∈ s.outBuf ∨ b ∈ s.errBuf → a.2.time ≤ b.time) →
      ((g ++ given ops).Pairwise fun a b => a.2.time ≤ b.2.time) →
      (s.run ops).written.Pairwise fun a b => a.2.time ≤ b.2.time := by
    intro ops
    induction ops with
    | nil => intro s g _ h _ _; exact h
    | cons op ops ih =>
      intro s g hk hw hold hg
      have egiven : given [op] ++ given ops = given (op :: ops) := by cases op <;> rfl
      have hk' : Kept40 (s.step op) (g ++ given [op]) := by simpa [Out.run] using kept_run [op] s g hk
      have hg' : (g ++ given [op] ++ given ops).Pairwise fun a b => a.2.time ≤ b.2.time := by
        rw [List.append_assoc, egiven]; exact hg
      have hgs : g.Pairwise fun a b => a.2.time ≤ b.2.time := (List.pairwise_append.1 hg).1
      have hsub : ∀ ch, (onChan ch g).Pairwise fun a b => a.time ≤ b.time := by
        intro ch
        unfold onChan
        rw [List.pairwise_map]
        exact hgs.filter _
      have hoA : Ascending s.outBuf := by
        have := hsub .out; rw [← hk.out] at this; exact (List.pairwise_append.1 this).2.1
      have heA : Ascending s.errBuf := by
        have := hsub .err; rw [← hk.err] at this; exact (List.pairwise_append.1 this).2.1
      have hing : ∀ (c : Chunk), (c ∈ s.outBuf ∨ c ∈ s.errBuf) → ∃ ch, (ch, c) ∈ g := by
        intro c hc
        rcases hc with hc | hc
        · have : c ∈ onChan .out g := by rw [← hk.out]; simp [hc]
          simp only [onChan, List.mem_map, List.mem_filter] at this
          obtain ⟨⟨a, b⟩, ⟨h1, _⟩, rfl⟩ := this
          exact ⟨a, h1⟩
        · have : c ∈ onChan .err g := by rw [← hk.err]; simp [hc]
          simp only [onChan, List.mem_map, List.mem_filter] at this
          obtain ⟨⟨a, b⟩, ⟨h1, _⟩, rfl⟩ := this
          exact ⟨a, h1⟩
      have hwg : ∀ x ∈ s.written, x ∈ g := by
        intro x hx
        obtain ⟨ch, c⟩ := x
        have hc : c ∈ onChan ch s.written := by
          simp only [onChan, List.mem_map, List.mem_filter, decide_eq_true_eq]
          exact ⟨(ch, c), ⟨hx, rfl⟩, rfl⟩
        have : c ∈ onChan ch g := by
          cases ch
          · rw [← hk.out]; simp [hc]
          · rw [← hk.err]; simp [hc]
        simp only [onChan, List.mem_map, List.mem_filter, decide_eq_true_eq] at this
        obtain ⟨⟨a, b⟩, ⟨h1, e1⟩, e2⟩ := this
        simp only at e1 e2
        rw [← e1, ← e2]; exact h1
      have hprint : ∀ b, ((printBuffered { s with buffered := b }).written.Pairwise fun a b => a.2.time ≤ b.2.time) := by
        intro b
        simp only [printBuffered]
        rw [List.pairwise_append]
        refine ⟨hw, (printLoop_sorted _ _ _ hoA heA).imp ?_, ?_⟩
        · intro x y hxy
          unfold Before at hxy
          omega
        · intro x hx y hy
          apply hold x hx
          rcases printLoop_mem _ _ _ _ hy with h | h
          · exact .inl h.2
          · exact .inr h.2
      refine ih (s.step op) (g ++ given [op]) hk' ?_ ?_ hg'
      · cases op with
        | chunk ch c =>
          simp only [Out.step, Proc.chunk]
          split
          · cases ch <;> exact hw
          · rw [List.pairwise_append]
            refine ⟨hw, List.pairwise_singleton _ _, ?_⟩
            intro x hx y hy
            rw [List.mem_singleton] at hy
            subst hy
            have := (List.pairwise_append.1 hg').1
            simp only [given] at this
            exact (List.pairwise_append.1 this).2.2 x (hwg x hx) _ (by simp)
        | setBuffered b =>
          simp only [Out.step, Proc.setBuffered]
          split
          · exact hw
          · split
            · exact hprint b
            · exact hw
        | finished => exact hprint s.buffered
      · cases op with
        | chunk ch c =>
          have hnew : ∀ x ∈ g, x.2.time ≤ c.time := by
            intro x hx
            have := (List.pairwise_append.1 hg').1
            simp only [given] at this
            exact (List.pairwise_append.1 this).2.2 x hx (ch, c) (by simp)
          simp only [Out.step, Proc.chunk]
          split
          · cases ch
            · intro a ha b hb
              simp only [List.mem_append, List.mem_singleton] at hb
              rcases hb with (hb | rfl) | hb
              · exact hold a ha b (.inl hb)
              · exact hnew a (hwg a ha)
              · exact hold a ha b (.inr hb)
            · intro a ha b hb
              simp only [List.mem_append, List.mem_singleton] at hb
              rcases hb with hb | hb | rfl
              · exact hold a ha b (.inl hb)
              · exact hold a ha b (.inr hb)
              · exact hnew a (hwg a ha)
          · rename_i hb
            have hd := hk.direct (by simpa using hb)
            intro a _ b hb
            simp only [hd.1, hd.2, List.not_mem_nil, or_self] at hb
        | setBuffered b =>
          simp only [Out.step, Proc.setBuffered]
          split
          · exact hold
          · split
            · intro a _ b hb
              simp [printBuffered] at hb
            · exact hold
        | finished =>
          intro a _ b hb
          simp [Out.step, printBuffered] at hb
  exact key ops {} [] ⟨fun _ => ⟨rfl, rfl⟩, rfl, rfl⟩ List.Pairwise.nil (by simp) (by simpa using h)

/-- Buffered, then direct, then buffered again. -/
example : (Out.run {} [.chunk .out ⟨1, c!"a"⟩, .chunk .err ⟨2, c!"X"⟩, .setBuffered false, .chunk .out ⟨3, c!"b"⟩,
    .setBuffered true, .chunk .err ⟨4, c!"Y"⟩, .finished]).written =
    [(.out, ⟨1, c!"a"⟩), (.err, ⟨2, c!"X"⟩), (.out, ⟨3, c!"b"⟩), (.err, ⟨4, c!"Y"⟩)] := by decide

/-! ### C58: no output is lost -/

/-- The text written to a channel. -/
def textOf (ch : Chan) (l : List (Chan × Chunk)) : Str := (onChan ch l).flatMap (·.data)

/-- The text a command has written to a channel before it ended. -/
def wrote (ch : Chan) : List PEv → Str
  | [] => []
  | .write c t :: evs => (if c = ch then t else []) ++ wrote ch evs
  | .exit :: _ => []
  | _ :: evs => wrote ch evs

/-- Everything that has left the pipe of a channel is written or buffered. -/
def shown : Chan → Out → Str
  | .out, o => textOf .out o.written ++ o.outBuf.flatMap fun (c : Chunk) => c.data
  | .err, o => textOf .err o.written ++ o.errBuf.flatMap fun (c : Chunk) => c.data

theorem textOf_append (ch : Chan) (a b : List (Chan × Chunk)) : textOf ch (a ++ b) = textOf ch a ++ textOf ch b := by
  simp [textOf, onChan_append]

theorem shown_chunk (ch ch' : Chan) (c : Chunk) (o : Out) (hd : o.buffered = false → o.outBuf = [] ∧ o.errBuf = []) :
    shown ch (Proc.chunk ch' c o) = shown ch o ++ (if ch' = ch then c.data else []) := by
  unfold Proc.chunk
  split
  · cases ch <;> cases ch' <;> simp [shown]
  · rename_i hb
    have hd := hd (by simpa using hb)
    cases ch <;> cases ch' <;> simp [shown, textOf, onChan, hd.1, hd.2]

theorem shown_print (ch : Chan) (o : Out) : shown ch (printBuffered o) = shown ch o := by
  obtain ⟨h1, h2⟩ := printLoop_chan _ o.outBuf o.errBuf (Nat.le_refl _)
  cases ch
  · simp [shown, printBuffered, textOf, onChan_append, h1]
  · simp [shown, printBuffered, textOf, onChan_append, h2]

theorem shown_setBuffered (ch : Chan) (b : Bool) (o : Out) : shown ch (Proc.setBuffered b o) = shown ch o := by
  unfold Proc.setBuffered
  split
  · rfl
  · split
    · rw [shown_print]; cases ch <;> rfl
    · cases ch <;> rfl

theorem direct_setBuffered (b : Bool) {o : Out} (hd : o.buffered = false → o.outBuf = [] ∧ o.errBuf = []) :
    (Proc.setBuffered b o).buffered = false → (Proc.setBuffered b o).outBuf = [] ∧ (Proc.setBuffered b o).errBuf = [] := by
  unfold Proc.setBuffered
  split
  · exact hd
  · split
    · exact fun _ => ⟨rfl, rfl⟩
    · rename_i h
      intro e
      simp only at e
      rw [e] at h
      simp at h

/-- **C58**, as far as it holds: if the pipes are empty when jom learns of the end of the command (and it has not
learned of it before), everything the command has written is in jom's output. Missing: jom does not wait for the rest of the
pipes, see `C58_refuted`. -/
theorem C58_partial (evs : List PEv) (ch : Chan) (hd : (Pipes.run {} evs).done = false)
    (hempty : (Pipes.run {} evs).inPipe ch = []) (hend : (Pipes.run {} evs).ended = true) :
    textOf ch (Pipes.run {} (evs ++ [.notified])).out.written = wrote ch evs := by
  have key : ∀ (evs : List PEv) (s : Pipes), s.done = false → (s.out.buffered = false → s.out.outBuf = [] ∧ s.out.errBuf = []) →
      (Pipes.run s evs).done = false →
      shown ch (Pipes.run s evs).out ++ (Pipes.run s evs).inPipe ch =
        shown ch s.out ++ s.inPipe ch ++ (if s.ended then [] else wrote ch evs) := by
    intro evs
    induction evs with
    | nil => intro s _ _ _; cases s.ended <;> simp [Pipes.run, wrote]
    | cons ev evs ih =>
      intro s hs hdir hdone
      have e : Pipes.run s (ev :: evs) = Pipes.run (s.step ev) evs := rfl
      have hmono : ∀ (evs : List PEv) (s : Pipes), s.done = true → (Pipes.run s evs).done = true := by
        intro evs
        induction evs with
        | nil => intro s h; exact h
        | cons ev evs ih =>
          intro s h
          apply ih
          cases ev <;> simp only [Pipes.step]
          · split <;> exact h
          · split <;> exact h
          · exact h
          · split
            · rfl
            · exact h
          · exact h
      have hsd : (s.step ev).done = false := by
        cases h : (s.step ev).done
        · rfl
        · rw [e, hmono evs _ h] at hdone; cases hdone
      have hdir' : (s.step ev).out.buffered = false → (s.step ev).out.outBuf = [] ∧ (s.step ev).out.errBuf = [] := by
        cases ev with
        | write c t => simp only [Pipes.step]; split <;> exact hdir
        | read c n =>
          simp only [Pipes.step]
          split
          · exact hdir
          · simp only [Proc.chunk]
            split
            · rename_i hb
              cases c <;> (intro h; simp only at h; rw [h] at hb; cases hb)
            · exact hdir
        | exit => exact hdir
        | notified =>
          simp only [Pipes.step] at hsd ⊢
          split
          · rename_i h; rw [if_pos h] at hsd; cases hsd
          · exact hdir
        | setBuffered b => exact direct_setBuffered b hdir
      rw [e, ih _ hsd hdir' (e ▸ hdone)]
      cases ev with
      | write c t =>
        simp only [Pipes.step]
        by_cases hen : s.ended = true
        · simp only [hen, if_true]
        · simp only [hen, Bool.false_eq_true, if_false, wrote]
          by_cases hc : c = ch
          · subst hc; simp
          · have : ¬ ch = c := fun e => hc e.symm
            simp [hc, this]
      | read c n =>
        simp only [Pipes.step, hs, Bool.false_eq_true, false_or]
        split
        · simp only [wrote]
        · simp only [shown_chunk ch c _ s.out hdir, wrote]
          by_cases hc : c = ch
          · subst hc
            simp only [if_true]
            rw [List.append_assoc (shown c s.out), List.take_append_drop]
          · have : ¬ ch = c := fun e => hc e.symm
            simp [hc, this]
      | exit => cases hen : s.ended <;> simp [Pipes.step, wrote]
      | notified =>
        simp only [Pipes.step] at hsd ⊢
        split
        · rename_i h; rw [if_pos h] at hsd; cases hsd
        · simp only [wrote]
      | setBuffered b => 
        simp only [Pipes.step, shown_setBuffered, wrote]
        by_cases hen : s.ended = true <;> simp only [hen, if_true]
  have h := key evs {} rfl (fun _ => ⟨rfl, rfl⟩) hd
  have e : Pipes.run {} (evs ++ [.notified]) = (Pipes.run {} evs).step .notified := by simp [Pipes.run]
  rw [hempty] at h
  rw [e]
  simp only [Pipes.step, hend, hd, Bool.not_false, Bool.and_self, if_true]
  have h2 := shown_print ch (Pipes.run {} evs).out
  have h3 : shown ch (printBuffered (Pipes.run {} evs).out) =
      textOf ch (printBuffered (Pipes.run {} evs).out).written := by
    cases ch <;> simp [shown, printBuffered]
  have h4 : shown ch ({} : Pipes).out ++ ({} : Pipes).inPipe ch = [] := by cases ch <;> rfl
  rw [← h3, h2]
  simpa [h4] using h

/-- A run in which both channels are read in pieces. -/
def readOut : List PEv :=
  [.write .out c!"hello", .read .out 2, .setBuffered false, .write .err c!"oops", .exit, .read .out 9, .read .err 9]

example : (Pipes.run {} readOut).done = false ∧ (Pipes.run {} readOut).inPipe .out = [] ∧
    (Pipes.run {} readOut).inPipe .err = [] ∧ (Pipes.run {} readOut).ended = true ∧
    wrote .out readOut = c!"hello" ∧ wrote .err readOut = c!"oops" := by decide

/-- **C58 refuted**: the command writes an error message and ends; the process handle is signalled before the read of the
pipe is completed, so jom closes the pipe and the message is lost. -/
theorem C58_refuted : wrote .err [.write .err c!"oops", .exit, .notified, .read .err 9] = c!"oops" ∧
    (Pipes.run {} [.write .err c!"oops", .exit, .notified, .read .err 9]).out.written = [] := by decide

/-! ### C46: environment block -/

/-- Reading a string up to its end. -/
def untilNul (s : Str) : Str := s.takeWhile fun c => c != nul

/-- What Windows makes of an environment block: strings that end with a zero, up to an empty one.  A string is cut at its
first `=` behind the first character. `n` bounds the number of strings. -/
def decodeBlock : Nat → Str → List (Str × Str)
  | 0, _ => []
  | n + 1, s =>
    match untilNul s with
    | [] => []
    | c :: t =>
      (c :: t.takeWhile (fun x => x != '='), (t.dropWhile (fun x => x != '=')).drop 1) :: decodeBlock n (s.drop (t.length + 2))

/-- Variables that an environment block can express: the name is not empty and has no `=` behind its first character,
name and value have no zeros. -/
def Expressible (env : List (Str × Str)) : Prop :=
  ∀ kv ∈ env, (∃ c r, kv.1 = c :: r ∧ '=' ∉ r) ∧ nul ∉ kv.1 ∧ nul ∉ kv.2

theorem takeWhile_stop {p : Char → Bool} {a b : Str} {x : Char} (ha : ∀ c ∈ a, p c = true) (hx : p x = false) :
    (a ++ x :: b).takeWhile p = a := by
  induction a with
  | nil => simp [hx]
  | cons c a ih =>
    simp only [List.cons_append, List.takeWhile_cons, ha c (by simp), if_true]
    rw [ih fun d hd => ha d (by simp [hd])]

theorem dropWhile_stop {p : Char → Bool} {a b : Str} {x : Char} (ha : ∀ c ∈ a, p c = true) (hx : p x = false) :
    (a ++ x :: b).dropWhile p = x :: b := by
  induction a with
  | nil => simp [hx]
  | cons c a ih =>
    simp only [List.cons_append, List.dropWhile_cons, ha c (by simp), if_true]
    exact ih fun d hd => ha d (by simp [hd])

theorem decode_entries : ∀ (env : List (Str × Str)) (rest : Str) (n : Nat), Expressible env → env.length < n →
    untilNul rest = [] → decodeBlock n (envEntries env ++ rest) = env := by
  intro env
  induction env with
  | nil =>
    intro rest n _ hn hr
    obtain ⟨n, rfl⟩ : ∃ m, n = m + 1 := ⟨n - 1, by simp at hn; omega⟩
    simp only [envEntries, List.nil_append, decodeBlock, hr]
  | cons kv env ih =>
    intro rest n hex hn hr
    obtain ⟨n, rfl⟩ : ∃ m, n = m + 1 := ⟨n - 1, by simp at hn; omega⟩
    obtain ⟨k, v⟩ := kv
    obtain ⟨⟨c, r, hk, heq⟩, hkn, hvn⟩ := hex (k, v) (by simp)
    simp only at hk hkn hvn
    subst hk
    have hne : ¬ ((c :: r).length + v.length + 2 = 2) := by simp
    simp only [envEntries, hne, if_false]
    have hassoc : ((c :: r) ++ '=' :: (v ++ nul :: envEntries env)) ++ rest =
        ((c :: r) ++ '=' :: v) ++ nul :: (envEntries env ++ rest) := by simp
    have hp : ∀ x ∈ (c :: r) ++ '=' :: v, (x != nul) = true := by
      intro x hx
      rw [bne_iff_ne]
      rintro rfl
      simp only [List.mem_append, List.mem_cons] at hx
      rcases hx with hx | hx | hx
      · exact hkn (by simpa using hx)
      · revert hx; decide
      · exact hvn hx
    have hu : untilNul (((c :: r) ++ '=' :: v) ++ nul :: (envEntries env ++ rest)) = c :: (r ++ '=' :: v) := by
      unfold untilNul
      rw [takeWhile_stop hp (by decide)]; rfl
    have hpe : ∀ x ∈ r, (x != '=') = true := by
      intro x hx
      rw [bne_iff_ne]; rintro rfl; exact heq hx
    rw [hassoc, decodeBlock, hu]
    simp only
    rw [takeWhile_stop hpe (by decide), dropWhile_stop hpe (by decide)]
    have hdrop : (((c :: r) ++ '=' :: v) ++ nul :: (envEntries env ++ rest)).drop ((r ++ '=' :: v).length + 2) =
        envEntries env ++ rest := by
      have : (r ++ '=' :: v).length + 2 = (((c :: r) ++ '=' :: v) ++ [nul]).length := by
        simp only [List.length_append, List.length_cons, List.length_nil]; omega
      have e2 : ((c :: r) ++ '=' :: v) ++ nul :: (envEntries env ++ rest) =
          (((c :: r) ++ '=' :: v) ++ [nul]) ++ (envEntries env ++ rest) := by simp
      rw [this, e2, List.drop_left]
    rw [hdrop, ih rest n (fun kv h => hex kv (by simp [h])) (by simp at hn; omega) hr]
    simp

/-- **C46**: for every environment the block decodes to exactly the variables of the environment, completed by `Path` and
`SystemRoot` if these are missing, and ends with two zeros. -/
theorem C46_block (path systemRoot : Str) (env : List (Str × Str)) (hne : env ≠ [])
    (hex : Expressible (completeEnv path systemRoot env)) :
    (∀ n, (completeEnv path systemRoot env).length < n →
      decodeBlock n (createEnvBlock path systemRoot env) = completeEnv path systemRoot env) ∧
    ∃ body, createEnvBlock path systemRoot env = body ++ [nul, nul] := by
  have e : createEnvBlock path systemRoot env = envEntries (completeEnv path systemRoot env) ++ [nul, nul] := by
    unfold createEnvBlock
    rw [if_neg (by simpa using hne)]
  rw [e]
  exact ⟨fun n hn => decode_entries _ _ n hex hn (by decide), _, rfl⟩

theorem envLookup_set_other {name x v : Str} (h : envKeyEq name x = false) (env : List (Str × Str)) :
    envLookup x (envSet name v env) = envLookup x env := by
  induction env with
  | nil => simp [envSet, envLookup, h]
  | cons kv env ih =>
    obtain ⟨k, w⟩ := kv
    simp only [envSet]
    split
    · rename_i hk
      have : envKeyEq k x = envKeyEq name x := by
        unfold envKeyEq at hk ⊢
        rw [beq_iff_eq.1 hk]
      simp only [envLookup, this, h, Bool.false_eq_true, if_false]
    · simp only [envLookup, ih]

theorem envLookup_set_same {name x v : Str} (h : envKeyEq name x = true) (env : List (Str × Str)) :
    envLookup x (envSet name v env) = some v := by
  induction env with
  | nil => simp [envSet, envLookup, h]
  | cons kv env ih =>
    obtain ⟨k, w⟩ := kv
    simp only [envSet]
    split
    · rename_i hk
      have : envKeyEq k x = envKeyEq name x := by
        unfold envKeyEq at hk ⊢
        rw [beq_iff_eq.1 hk]
      simp only [envLookup, this, h, if_true]
    · rename_i hk
      have : envKeyEq k x = false := by
        unfold envKeyEq at hk h ⊢
        rw [← beq_iff_eq.1 h]
        simpa using hk
      simp only [envLookup, this, Bool.false_eq_true, if_false, ih]

/-- `completeEnv` adds nothing but `Path` and `SystemRoot`, with the values jom itself has, and only if they are missing. -/
theorem C46_completed (path systemRoot : Str) (env : List (Str × Str)) (name : Str) :
    envLookup name (completeEnv path systemRoot env) =
      match envLookup name env with
      | some v => some v
      | none =>
        if envKeyEq c!"Path" name = true ∧ path ≠ [] then some path
        else if envKeyEq c!"SystemRoot" name = true ∧ systemRoot ≠ [] then some systemRoot
        else none := by
  have look : ∀ (x : Str) (env : List (Str × Str)), envKeyEq x name = true → envLookup name env = envLookup x env := by
    intro x env h
    induction env with
    | nil => rfl
    | cons kv env ih =>
      obtain ⟨k, w⟩ := kv
      have : envKeyEq k name = envKeyEq k x := by
        unfold envKeyEq at h ⊢
        rw [beq_iff_eq.1 h]
      simp only [envLookup, this, ih]
  have ne : envKeyEq c!"Path" c!"SystemRoot" = false := by decide
  have excl : ¬ (envKeyEq c!"Path" name = true ∧ envKeyEq c!"SystemRoot" name = true) := by
    rintro ⟨h1, h2⟩
    have : envKeyEq c!"Path" c!"SystemRoot" = true := by
      unfold envKeyEq at h1 h2 ⊢
      rw [beq_iff_eq.1 h1, beq_iff_eq.1 h2]; simp
    rw [ne] at this; cases this
  -- the first step
  have step : ∀ (x v : Str) (env : List (Str × Str)),
      envLookup name (if (envLookup x env).isSome || v.isEmpty then env else envSet x v env) =
        match envLookup name env with
        | some w => some w
        | none => if envKeyEq x name = true ∧ v ≠ [] then some v else none := by
    intro x v env
    by_cases hx : envKeyEq x name = true
    · rw [look x env hx]
      cases hl : envLookup x env with
      | some w => simp [look x env hx, hl]
      | none =>
        cases v with
        | nil => simp [look x env hx, hl]
        | cons c r => simp [envLookup_set_same hx, hx]
    · have hx' : envKeyEq x name = false := by simpa using hx
      split
      · cases envLookup name env <;> simp [hx']
      · rw [envLookup_set_other hx']
        cases envLookup name env <;> simp [hx']
  unfold completeEnv
  simp only
  rw [step, step]
  cases envLookup name env with
  | some w => rfl
  | none =>
    by_cases h1 : envKeyEq c!"Path" name = true ∧ path ≠ []
    · simp only [h1, and_self, if_true, ne_eq, not_false_eq_true]
    · simp only [h1, if_false]

/-- An environment with one variable, and the block with `Path` and `SystemRoot` added. -/
example : decodeBlock 9 (createEnvBlock c!"C:\\bin" c!"C:\\W" [(c!"A", c!"x=y"), (c!"Empty", [])]) =
    [(c!"A", c!"x=y"), (c!"Empty", []), (c!"Path", c!"C:\\bin"), (c!"SystemRoot", c!"C:\\W")] := by decide +kernel

example : Expressible (completeEnv c!"C:\\bin" c!"C:\\W" [(c!"A", c!"x=y"), (c!"Empty", [])]) := by
  have e : completeEnv c!"C:\\bin" c!"C:\\W" [(c!"A", c!"x=y"), (c!"Empty", [])] =
    [(c!"A", c!"x=y"), (c!"Empty", []), (c!"Path", c!"C:\\bin"), (c!"SystemRoot", c!"C:\\W")] := by decide +kernel
  rw [e]
  intro kv h
  simp only [List.mem_cons, List.not_mem_nil, or_false] at h
  rcases h with rfl | rfl | rfl | rfl
  · exact ⟨⟨_, _, rfl, by decide⟩, by decide, by decide⟩
  · exact ⟨⟨_, _, rfl, by decide⟩, by decide, by decide⟩
  · exact ⟨⟨_, _, rfl, by decide⟩, by decide, by decide⟩
  · exact ⟨⟨_, _, rfl, by decide⟩, by decide, by decide⟩

end Jom.Props

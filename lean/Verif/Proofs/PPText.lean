import Verif.Props.Preprocessor
import Verif.Proofs.PPSticky

/-! The rounds of the main loop as the parser sees them. -/

namespace Jom.PP

open Jom.Spec Jom.Parse Jom.Spec.Makefile

theorem next_of {w : World} {F : Nat} {b : Bool} {s s' : St} {t : Option Str} (h : readLineF w F {} { s with inline := b } = .ok (t, s')) :
    (ppSource w F).next b s = .ok (t, s') := by
  simp only [ppSource, readLine, h]

/-- What is read first. -/
def First (w : World) (F : Nat) (e : St) (p : MLine) (s : St) : List Line → Prop
  | [] => readLineF w F p s = .ok (none, e)
  | l :: ls => ∃ s1, l.inl = false ∧ readLineF w F p s = .ok (some l.text, s1) ∧ s1.table.macros = l.macros ∧
    Before (ppSource w F) false s1 ls e

theorem first_before {w : World} {F : Nat} {e s : St} {o : List Line} (hi : s.inline = false) (h : First w F e {} s o) :
    Before (ppSource w F) false s o e := by
  have hs : ({ s with inline := false } : St) = s := by rw [← hi]
  cases o with
  | nil =>
    have hn : (ppSource w F).next false s = .ok (none, e) := next_of (by rw [hs]; exact h)
    obtain ⟨E, h1, h2⟩ := ppSource_sticky w F _ _ _ hn
    exact ⟨s, .nil, E, by rw [h1]; exact hn, h2, h1.symm⟩
  | cons l ls =>
    obtain ⟨s1, h1, h2, h3, ⟨z, h4, h5⟩⟩ := h
    refine ⟨z, .cons (s' := s1) ?_ h3 h4, h5⟩
    rw [h1]
    exact next_of (by rw [hs]; exact h2)

theorem before_inline {w : World} {F : Nat} {e s : St} {o : List Line} {b : Bool} (h : Before (ppSource w F) false s o e) :
    Before (ppSource w F) false { s with inline := b } o e := by
  obtain ⟨z, h1, h2⟩ := h
  cases h1 with
  | nil =>
    obtain ⟨E, h3, h4, h5⟩ := h2
    exact ⟨_, .nil, E, h3, h4, h5⟩
  | cons h3 h4 h5 => exact ⟨z, .cons (s' := _) h3 h4 h5, h2⟩

theorem Raws.inline {w : World} {s s' : St} {o : List Line} (h : Raws w s o s') : s.inline = false ∧ s'.inline = false := by
  induction h with
  | nil _ h => exact ⟨h, h⟩
  | cons _ _ _ _ _ _ h _ ih => exact ⟨h, ih.2⟩

theorem Raws.before {w : World} {s s' e : St} {o o' : List Line} {F : Nat} (h : Raws w s o s')
    (hb : Before (ppSource w (F + 1)) false s' o' e) : Before (ppSource w (F + 1)) false s (o ++ o') e := by
  induction h with
  | nil _ _ => exact hb
  | cons s s1 s2 t o hr hi _ ih =>
    obtain ⟨z, h1, h2⟩ := before_inline (b := true) (ih hb)
    refine ⟨z, .cons (s' := { s1 with inline := true }) (next_of ?_) rfl h1, h2⟩
    rw [readLineF, hr]; simp

theorem Steps.first {w : World} {p p' : MLine} {s s' e : St} {o : List Line} (h : Steps w p s o p' s')
    (hend : ∃ N, ∀ F ≥ N, readLineF w F p' s' = .ok (none, e)) : ∃ N, ∀ F ≥ N, First w F e p s o := by
  induction h with
  | refl => exact hend
  | go p p1 p2 s s1 s2 o hr _ ih =>
    obtain ⟨N, hN⟩ := ih hend
    refine ⟨N + 1, fun F hF => ?_⟩
    obtain ⟨F, rfl⟩ : ∃ G, F = G + 1 := ⟨F - 1, by omega⟩
    have step : readLineF w (F + 1) p s = readLineF w F (norm p1) s1 := by rw [readLineF, hr, readLineF_norm]
    have h2 := hN F (by omega)
    cases o with
    | nil =>
      show readLineF w (F + 1) p s = _
      rw [step]; exact h2
    | cons l ls =>
      obtain ⟨x, _, h3, _⟩ := h2
      obtain ⟨s1', h4, h5, h6, h7⟩ := hN (F + 1) (by omega)
      have h8 := readLineF_mono w F (norm p1) s1 1 (by rw [h3]; simp)
      rw [h3] at h8
      rw [h8] at h5
      cases h5
      exact ⟨x, h4, by rw [step]; exact h3, h6, h7⟩
  | out p p2 s s1 s2 s3 t o o' hr hw _ ih =>
    obtain ⟨N, hN⟩ := ih hend
    refine ⟨N + 1, fun F hF => ?_⟩
    obtain ⟨F, rfl⟩ : ∃ G, F = G + 1 := ⟨F - 1, by omega⟩
    refine ⟨s1, rfl, ?_, rfl, hw.before (first_before hw.inline.2 (hN _ (by omega)))⟩
    rw [readLineF, hr]; simp

/-- The lines of a structured text are what the parser gets. -/
theorem exec_before {w : World} {f : TextFile} {c c' : Cfg} {tree : Tree .block} {o : List Line}
    (h : Exec w [f] c tree o c') (htext : Consists tree.lines f.rest) (hp : c.part = {}) (hp' : c'.part = {}) :
    ∃ e N, e.table = c'.table ∧ e.messages = c'.messages ∧ e.conds = [] ∧
      ∀ F ≥ N, Before (ppSource w F) false { table := c.table, messages := c.messages, files := [f] } o e := by
  obtain ⟨s1, h1, h2, h3, h4⟩ := exec_sim h f [] { table := c.table, messages := c.messages, files := [f] } [] rfl
    ⟨rfl, rfl, by rw [hp]; rfl⟩ ⟨rfl, rfl, [], f.rest, rfl, by simp, by simpa using htext⟩
  obtain ⟨g, hend⟩ := Props.readLine_end (w := w) h3 h4
  rw [hp, hp'] at h1
  have hend' : ∃ N, ∀ F ≥ N, readLineF w F {} s1 = .ok (none, { s1 with files := g }) := by
    refine ⟨1, fun F hF => ?_⟩
    have := readLineF_mono w 1 {} s1 (F - 1) (by rw [hend]; simp)
    rw [show 1 + (F - 1) = F by omega, hend] at this
    exact this
  obtain ⟨N, hN⟩ := h1.first hend'
  exact ⟨{ s1 with files := g }, N, h2.table, h2.messages, h4, fun F hF => first_before rfl (hN F hF)⟩

end Jom.PP

/- Being missing, newer or up to date only depends on the files of what a target needs. -/
import Verif.Proofs.MakeTest

namespace Jom.Make

open Jom.UpToDate Jom.Spec.Build

/-- `f` and `f'` have the same files for the targets in `S` and all names they mention; `S` is closed. -/
structure Agree (db : Db) (S : Nat → Prop) (f f' : Files) : Prop where
  closed : ∀ k, S k → ∀ d, d ∈ (db.target k).deps ∨ d ∈ (db.target k).rules → ∀ c, db.lookup d = some c → S c
  name : ∀ k, S k → f (db.target k).name = f' (db.target k).name
  dep : ∀ k, S k → ∀ d, d ∈ (db.target k).deps ∨ d ∈ (db.target k).rules → f d = f' d

variable {db : Db} {S : Nat → Prop} {f f' : Files}

theorem Agree.symm (h : Agree db S f f') : Agree db S f' f :=
  ⟨h.closed, fun k hk => (h.name k hk).symm, fun k hk d hd => (h.dep k hk d hd).symm⟩

/-- `d` is mentioned by a target in `S`. -/
def Ment (db : Db) (S : Nat → Prop) (d : Str) : Prop := ∃ k, S k ∧ (d ∈ (db.target k).deps ∨ d ∈ (db.target k).rules)

theorem Agree.ment (h : Agree db S f f') {d : Str} (hd : Ment db S d) : f d = f' d := by
  obtain ⟨k, hk, hd⟩ := hd
  exact h.dep k hk d hd

theorem Agree.mentClosed (h : Agree db S f f') {d : Str} (hd : Ment db S d) {k : Nat} (hk : db.lookup d = some k) : S k := by
  obtain ⟨x, hx, hd⟩ := hd
  exact h.closed x hx d hd k hk

theorem Agree.buildable (h : Agree db S f f') {k : Nat} (hk : S k) (hb : Buildable f db k) : Buildable f' db k := by
  rcases hb with hb | ⟨r, hr, s, hs⟩
  · exact .inl hb
  · exact .inr ⟨r, hr, s, by rw [← h.dep k hk r (.inr hr)]; exact hs⟩

theorem Agree.counts (h : Agree db S f f') {k : Nat} (hk : S k) {d : Str} (hc : Counts f db k d) : Counts f' db k d := by
  rcases hc with hc | ⟨hr, s, hs⟩
  · exact .inl hc
  · exact .inr ⟨hr, s, by rw [← h.dep k hk d (.inr hr)]; exact hs⟩

theorem Agree.missing (h : Agree db S f f') {d : Str} (hm : Missing f db d) (hd : Ment db S d) : Missing f' db d := by
  induction hm with
  | noFile h1 h2 => exact .noFile (by rw [← h.ment hd]; exact h1) h2
  | toBuild h1 h2 h3 => exact .toBuild (by rw [← h.ment hd]; exact h1) h2 (h.buildable (h.mentClosed hd h2) h3)
  | empty h1 h2 h3 => exact .empty (by rw [← h.ment hd]; exact h1) h2 h3
  | behind h1 h2 h3 _ ih =>
    exact .behind (by rw [← h.ment hd]; exact h1) h2 h3 (ih ⟨_, h.mentClosed hd h2, .inl h3⟩)

theorem Agree.behind (h : Agree db S f f') {d : Str} {s : Nat} (hm : Behind f db d s) (hd : Ment db S d) : Behind f' db d s := by
  induction hm with
  | file h1 => exact .file (by rw [← h.ment hd]; exact h1)
  | behind h1 h2 h3 _ ih =>
    exact .behind (by rw [← h.ment hd]; exact h1) h2 h3 (ih ⟨_, h.mentClosed hd h2, .inl h3⟩)

theorem counts_ment {k : Nat} (hk : S k) {d : Str} (hc : Counts f db k d) : Ment db S d :=
  ⟨k, hk, hc.imp id And.left⟩

theorem Agree.upToDate (h : Agree db S f f') {k : Nat} (hk : S k) (hu : UpToDate f db k) : UpToDate f' db k := by
  obtain ⟨T, hT, hu⟩ := hu
  refine ⟨T, by rw [← h.name k hk]; exact hT, fun d hd => ?_⟩
  have hc := h.symm.counts hk hd
  have hm := counts_ment hk hc
  exact ⟨fun hx => (hu d hc).1 (h.symm.missing hx hm), fun s hs => (hu d hc).2 s (h.symm.behind hs hm)⟩

theorem Agree.static (h : Agree db S f f') {k : Nat} (hk : S k) {x : TInfo} (hs : Static f db k x) : Static f' db k x := by
  refine ⟨hs.1, hs.2.imp id ?_⟩
  rintro ⟨r, hr, ⟨s, hs⟩, h2⟩
  exact ⟨r, hr, ⟨s, by rw [← h.dep k hk r (.inr hr)]; exact hs⟩, h2⟩

theorem Agree.seenLe (h : Agree db S f f') {k : Nat} (hk : S k) {x : TInfo} (hs : SeenLe f db k x) : SeenLe f' db k x := by
  refine ⟨fun T hT => hs.1 T (by rw [h.name k hk]; exact hT), fun hn => ?_⟩
  obtain ⟨h1, h2⟩ := hs.2 (by rw [h.name k hk]; exact hn)
  refine ⟨h1, fun hb hm e he s hbe => ?_⟩
  have hment : ∀ e ∈ (db.target k).deps, Ment db S e := fun e he => ⟨k, hk, .inl he⟩
  exact h2 (fun hb' => hb (h.buildable hk hb')) (fun e he hx => hm e he (h.missing hx (hment e he))) e he s
    (h.symm.behind hbe (hment e he))

theorem Agree.attained (h : Agree db S f f') {k : Nat} (hk : S k) {x : TInfo} (hs : Attained f db k x) :
    Attained f' db k x := by
  intro h1 h2 h3 h4
  have hment : ∀ e ∈ (db.target k).deps, Ment db S e := fun e he => ⟨k, hk, .inl he⟩
  obtain ⟨e, he, hb⟩ := hs (by rw [h.name k hk]; exact h1) (fun hb' => h2 (h.buildable hk hb')) h3
    (fun e he hx => h4 e he (h.missing hx (hment e he)))
  exact ⟨e, he, h.behind hb (hment e he)⟩

theorem Agree.looked (h : Agree db S f f') {k : Nat} (hk : S k) {x : TInfo} (hst : Static f db k x) {d : Str}
    (hl : Looked f x d) : Looked f' x d := by
  rcases hl with hl | ⟨hr, s, hs⟩
  · exact .inl hl
  · rcases hst.2 with ⟨_, _, h3⟩ | ⟨_, _, _, h3, _⟩
    · refine .inr ⟨hr, s, ?_⟩
      rw [h3] at hr
      rw [← h.dep k hk d (.inr hr)]; exact hs
    · rw [h3] at hr; cases hr

/-- The names that one call looks at are mentioned by the target. -/
theorem looked_ment {k : Nat} (hk : S k) {x : TInfo} (hst : Static f db k x) {d : Str} (hl : Looked f x d) :
    Ment db S d := by
  refine ⟨k, hk, ?_⟩
  rcases hst.2 with ⟨h1, _, h3⟩ | ⟨r, hr, _, h3, _, h4⟩
  · rcases hl with hl | ⟨hl, _⟩
    · exact .inl (h1 ▸ hl)
    · exact .inr (h3 ▸ hl)
  · rcases hl with hl | ⟨hl, _⟩
    · rcases (h4 d).1 hl with h5 | rfl
      · exact .inl h5
      · exact .inr hr
    · rw [h3] at hl; cases hl

end Jom.Make

import Verif.Model.FileInfo

/-! Property C50: file information is fresh after a rebuild. -/

namespace Jom.Spec
open Jom.FileInfo (Op)

/-- The files on disk after a history; jom's own queries do not matter. -/
def diskAfter (disk : Str → Option Nat) : List Op → Str → Option Nat
  | [] => disk
  | .write f v :: ops => diskAfter (fun x => if x = f then v else disk x) ops
  | .query _ :: ops => diskAfter disk ops
  | .clear _ :: ops => diskAfter disk ops

end Jom.Spec

namespace Jom.Props
open Jom.FileInfo Jom.Spec

private theorem foldl_disk (abs : Str → Str) (ops : List Op) : ∀ s : St,
    (ops.foldl (apply abs) s).disk = diskAfter s.disk ops := by
  induction ops with
  | nil => intro s; rfl
  | cons op ops ih =>
    intro s
    rw [List.foldl_cons, ih]
    cases op with
    | query n =>
      have : (apply abs s (.query n)).disk = s.disk := by
        show ((query abs n s).1).disk = s.disk
        unfold query; split
        · rfl
        · split <;> rfl
      rw [this]; rfl
    | clear n => rfl
    | write f v => rfl

private theorem cached_filter (n m : Str) (c : List (Str × Nat)) :
    cached n (c.filter (·.1 ≠ m)) = if n = m then none else cached n c := by
  induction c with
  | nil => simp [cached]
  | cons p c ih =>
    obtain ⟨k, t⟩ := p
    simp only [List.filter_cons]
    by_cases hk : k = m
    · subst hk
      simp only [ne_eq, not_true_eq_false, decide_false, Bool.false_eq_true, if_false]
      rw [ih]
      by_cases hn : n = k
      · simp [hn]
      · simp [hn, cached, Ne.symm hn]
    · simp only [ne_eq, hk, not_false_eq_true, decide_true, if_true]
      by_cases hn : k = n
      · subst hn; simp [cached, hk]
      · simp only [cached, if_neg hn]; exact ih

/-- The cached entry of `n` after one more operation. -/
private theorem cached_apply (abs : Str → Str) (n : Str) (s : St) (op : Op) :
    cached n (apply abs s op).cache =
      if op = .clear n then none
      else if op = .query n then (cached n s.cache).or (s.disk (abs n))
      else cached n s.cache := by
  cases op with
  | clear m =>
    simp only [apply, clearCache, cached_filter]
    by_cases h : n = m
    · simp [h]
    · simp [h, Ne.symm h]
  | write f v => simp [apply]
  | query m =>
    simp only [apply, query]
    by_cases h : m = n
    · subst h
      cases hc : cached m s.cache with
      | some t => simp [hc]
      | none =>
        cases hd : s.disk (abs m) with
        | none => simp [hc]
        | some t => simp [cached]
    · cases hc : cached m s.cache with
      | some t => simp [h]
      | none =>
        cases hd : s.disk (abs m) with
        | none => simp [h]
        | some t => simp [h, cached]

private theorem answer_eq (abs : Str → Str) (d : Str → Option Nat) (ops : List Op) (n : Str) :
    answer abs d ops n = (cached n (run abs d ops).cache).or (diskAfter d ops (abs n)) := by
  unfold answer query
  cases hc : cached n (run abs d ops).cache with
  | some t => simp
  | none =>
    have : (run abs d ops).disk = diskAfter d ops := foldl_disk abs ops _
    rw [this]
    cases hd : diskAfter d ops (abs n) <;> simp

private theorem run_snoc (abs : Str → Str) (d : Str → Option Nat) (ops : List Op) (op : Op) :
    run abs d (ops ++ [op]) = apply abs (run abs d ops) op := by
  simp [run, List.foldl_append]

/-- The cached entry is the state on disk at an earlier moment, and no invalidation happened since. -/
private theorem cached_history (abs : Str → Str) (d : Str → Option Nat) (n : Str) (rops : List Op) :
    ∀ t, cached n (run abs d rops.reverse).cache = some t →
      ∃ pre suf, rops.reverse = pre ++ suf ∧ Op.clear n ∉ suf ∧ Op.query n ∈ suf ∧
        diskAfter d pre (abs n) = some t := by
  induction rops with
  | nil => intro t h; simp [run, cached] at h
  | cons op rops ih =>
    intro t h
    rw [List.reverse_cons, run_snoc, cached_apply] at h
    by_cases hc : op = .clear n
    · simp [hc] at h
    · rw [if_neg hc] at h
      have key : cached n (run abs d rops.reverse).cache = some t →
          ∃ pre suf, (op :: rops).reverse = pre ++ suf ∧ Op.clear n ∉ suf ∧ Op.query n ∈ suf ∧
            diskAfter d pre (abs n) = some t := by
        intro h
        obtain ⟨pre, suf, h1, h2, h3, h4⟩ := ih t h
        refine ⟨pre, suf ++ [op], by rw [List.reverse_cons, h1, List.append_assoc], ?_, by simp [h3], h4⟩
        simp [h2, Ne.symm hc]
      by_cases hq : op = .query n
      · rw [if_pos hq] at h
        cases hcc : cached n (run abs d rops.reverse).cache with
        | some t' => rw [hcc] at h; simp at h; subst h; exact key hcc
        | none =>
          rw [hcc] at h
          simp only [Option.none_or] at h
          refine ⟨rops.reverse, [op], by simp, by simp [hq], by simp [hq], ?_⟩
          have : (run abs d rops.reverse).disk = diskAfter d rops.reverse := foldl_disk abs _ _
          rw [← this]; exact h
      · rw [if_neg hq] at h; exact key h

/-- **C50**, every query: for every history the answer is what was on disk at some moment, and the name was not
invalidated between that moment and the query. -/
theorem C50_answer_from_history (abs : Str → Str) (d : Str → Option Nat) (ops : List Op) (n : Str) :
    ∃ pre suf, ops = pre ++ suf ∧ Op.clear n ∉ suf ∧ answer abs d ops n = diskAfter d pre (abs n) := by
  rw [answer_eq]
  cases hc : cached n (run abs d ops).cache with
  | none => exact ⟨ops, [], by simp, by simp, by simp⟩
  | some t =>
    have := cached_history abs d n ops.reverse t (by simpa using hc)
    obtain ⟨pre, suf, h1, h2, _, h4⟩ := this
    exact ⟨pre, suf, by simpa using h1, h2, by simp [h4]⟩

/-- **C50**, after a rebuild (the target's commands ran, then jom invalidates the target's name): the next query of
that name reports the state on disk, whatever happened before and whatever other names are asked for in between.
What is missing for the full claim: the file must be asked for under the spelling of the target's name, see
`C50_other_spelling_stale`. -/
theorem C50_fresh_after_rebuild_partial (abs : Str → Str) (d : Str → Option Nat) (pre mid : List Op) (n : Str)
    (hmid : Op.query n ∉ mid) :
    answer abs d (pre ++ Op.clear n :: mid) n = diskAfter d (pre ++ Op.clear n :: mid) (abs n) := by
  rw [answer_eq]
  suffices h : cached n (run abs d (pre ++ Op.clear n :: mid)).cache = none by rw [h]; simp
  have h0 : cached n (run abs d (pre ++ [Op.clear n])).cache = none := by
    rw [run_snoc, cached_apply, if_pos rfl]
  have : ∀ (mid : List Op) (s : St), Op.query n ∉ mid → cached n s.cache = none →
      cached n (mid.foldl (apply abs) s).cache = none := by
    intro mid
    induction mid with
    | nil => intro s _ h; exact h
    | cons op mid ih =>
      intro s hq h
      rw [List.foldl_cons]
      apply ih
      · exact fun hh => hq (by simp [hh])
      · rw [cached_apply, h]
        have : op ≠ .query n := fun hh => hq (by simp [hh])
        simp [this]
  have h1 := this mid (run abs d (pre ++ [Op.clear n])) hmid h0
  rw [← h1]
  simp [run, List.foldl_append]

/-- **C50**, missing files: "does not exist" is never stale. -/
theorem C50_missing_is_fresh (abs : Str → Str) (d : Str → Option Nat) (ops : List Op) (n : Str)
    (h : answer abs d ops n = none) : diskAfter d ops (abs n) = none := by
  rw [answer_eq] at h
  simp only [Option.or_eq_none_iff] at h
  exact h.2

/-- **C50** is false for other spellings of the rebuilt file: `foo` was built by its target, but `FOO`, which is the same
file for the file system (here: letter case is ignored), is still reported with the old time. -/
theorem C50_other_spelling_stale : ∃ (abs : Str → Str) (d : Str → Option Nat) (pre : List Op) (n m : Str),
    abs m = abs n ∧
    answer abs d (pre ++ [Op.clear n]) m ≠ diskAfter d (pre ++ [Op.clear n]) (abs m) :=
  ⟨toLower, fun x => if x = c!"foo" then some 1 else none,
    [.query c!"FOO", .write c!"foo" (some 2)], c!"foo", c!"FOO", by decide +kernel, by decide +kernel⟩

/-- A case that meets the hypothesis of `C50_fresh_after_rebuild_partial`: old time cached, file rebuilt, invalidated,
another file asked for; the new time is reported. -/
example : Op.query c!"foo" ∉ [Op.query c!"bar"] ∧
    answer id (fun x => if x = c!"foo" then some 1 else none)
      ([.query c!"foo", .write c!"foo" (some 2)] ++ .clear c!"foo" :: [.query c!"bar"]) c!"foo" = some 2 := by
  decide +kernel

/-- Without the invalidation the old time is reported (`C50_answer_from_history` with `pre = []`). -/
example : answer id (fun x => if x = c!"foo" then some 1 else none)
    [.query c!"foo", .write c!"foo" (some 2)] c!"foo" = some 1 := by decide +kernel

end Jom.Props

import Verif.Spec.RegexGramLayout
/-
Reading off the tokens that a given text lays out, for concrete texts.
-/
namespace Verif.Spec

/-- The tokens of a text. -/
def scan : Nat → List UInt8 → Option (List RxTok)
  | 0, _ => none
  | _ + 1, [] => some []
  | n + 1, x :: r =>
    if RxByte.word x then
      (scan n (r.dropWhile RxByte.word)).map (.sym (nameOf (x :: r.takeWhile RxByte.word)) :: ·)
    else if RxByte.blank x then scan n r
    else if RxByte.eol x then
      match r.dropWhile RxByte.space with
      | 47 :: 47 :: u => scan n (u.dropWhile (fun y => !RxByte.eol y))
      | s => (scan n s).map (.nl :: ·)
    else match RxTok.ofByte x with
      | some t => (scan n r).map (t :: ·)
      | none =>
        if x = 45 ∧ r.head? = some 62 then (scan n r.tail).map (.rarr :: ·) else none

theorem drop_stop (p : UInt8 → Bool) (s : List UInt8) : NoHead p (s.dropWhile p) := by
  intro x t e
  induction s with
  | nil => cases e
  | cons a s ih =>
    rw [List.dropWhile_cons] at e
    split at e
    · exact ih e
    · rename_i h
      cases e
      simpa using h

theorem take_all (p : UInt8 → Bool) (s : List UInt8) : ∀ x ∈ s.takeWhile p, p x = true := by
  induction s with
  | nil => simp
  | cons a s ih =>
    rw [List.takeWhile_cons]
    split
    · rename_i h
      intro x hx
      rcases List.mem_cons.1 hx with rfl | hx
      · exact h
      · exact ih x hx
    · simp

theorem scan_text : ∀ {n : Nat} {s : List UInt8} {ts : List RxTok}, scan n s = some ts → RxText s ts
  | 0, _, _, h => by simp [scan] at h
  | _ + 1, [], ts, h => by
    simp only [scan, Option.some.injEq] at h
    rw [← h]
    exact .done
  | n + 1, x :: r, ts, h => by
    rw [scan] at h
    split at h
    · rename_i hx
      rw [Option.map_eq_some_iff] at h
      obtain ⟨ts', h, rfl⟩ := h
      have e : x :: r = (x :: r.takeWhile RxByte.word) ++ r.dropWhile RxByte.word := by
        rw [List.cons_append, List.takeWhile_append_dropWhile]
      rw [e]
      refine .name (by simp) ?_ (drop_stop _ _) (scan_text h)
      intro y hy
      rcases List.mem_cons.1 hy with rfl | hy
      · exact hx
      · exact take_all _ _ y hy
    split at h
    · rename_i hx
      exact .blank hx (scan_text h)
    split at h
    · rename_i hx
      have e : r = r.takeWhile RxByte.space ++ r.dropWhile RxByte.space := List.takeWhile_append_dropWhile.symm
      split at h
      · rename_i u hu
        rw [hu] at e
        rw [e, show u = u.takeWhile (fun y => !RxByte.eol y) ++ u.dropWhile (fun y => !RxByte.eol y) from
          List.takeWhile_append_dropWhile.symm]
        refine .comment hx (take_all _ _) ?_ ?_ (scan_text h)
        · intro y hy
          simpa using take_all _ _ y hy
        · intro y v hv
          simpa using drop_stop _ _ y v hv
      · rename_i s hs
        rw [Option.map_eq_some_iff] at h
        obtain ⟨ts', h, rfl⟩ := h
        rw [e]
        exact .brk hx (take_all _ _) (drop_stop _ _) hs (scan_text h)
    split at h
    · rename_i t ht
      rw [Option.map_eq_some_iff] at h
      obtain ⟨ts', h, rfl⟩ := h
      exact .one ht (scan_text h)
    · split at h
      · rename_i hx
        rw [Option.map_eq_some_iff] at h
        obtain ⟨ts', h, rfl⟩ := h
        cases r with
        | nil => simp at hx
        | cons y r =>
          simp only [List.head?_cons, Option.some.injEq] at hx
          rw [hx.1, hx.2]
          exact .arrow (scan_text h)
      · cases h

end Verif.Spec

import Verif.Proofs.RegexGramScan
import Verif.Spec.ReducerText
/-
Reading off the tokens of a definition of a reducer that a given text lays out, for concrete texts.
-/
namespace Verif.Spec

/-- A period and a digit. -/
def isFrac (s : List UInt8) : Bool := s.head? == some 46 && s.tail.head?.any RxByte.digit

theorem noFrac_of {s : List UInt8} (h : isFrac s = false) : NoFrac s := by
  intro x t e
  subst e
  simpa [isFrac] using h

/-- The inside of a string and what is after it. -/
def strSplit : List UInt8 → Option (List UInt8 × List UInt8)
  | [] => none
  | x :: s =>
    if x = 34 then some ([], s)
    else if x = 92 then
      match s with
      | [] => none
      | y :: s => if y = 10 then none else (strSplit s).map fun p => (92 :: y :: p.1, p.2)
    else (strSplit s).map fun p => (x :: p.1, p.2)

theorem strSplit_body : ∀ {s b u : List UInt8}, strSplit s = some (b, u) → StrBody b ∧ s = b ++ 34 :: u
  | [], _, _, h => by simp [strSplit] at h
  | x :: s, b, u, h => by
    rw [strSplit.eq_def] at h
    simp only at h
    split at h
    · rename_i hx
      cases h
      exact ⟨.nil, by rw [hx]; rfl⟩
    rename_i hx
    split at h
    · rename_i hx
      cases s with
      | nil => cases h
      | cons y s =>
        simp only at h
        split at h
        · cases h
        · rename_i hy
          rw [Option.map_eq_some_iff] at h
          obtain ⟨⟨b', u'⟩, h, e⟩ := h
          cases e
          obtain ⟨h1, h2⟩ := strSplit_body h
          exact ⟨.esc hy h1, by rw [hx, h2]; rfl⟩
    · rename_i hb
      rw [Option.map_eq_some_iff] at h
      obtain ⟨⟨b', u'⟩, h, e⟩ := h
      cases e
      obtain ⟨h1, h2⟩ := strSplit_body h
      exact ⟨.plain hx hb h1, by rw [h2]; rfl⟩

/-- The tokens of a text; fractions are left out. -/
def rdScan : Nat → List UInt8 → Option (List RdTok)
  | 0, _ => none
  | _ + 1, [] => some []
  | n + 1, x :: r =>
    if RxByte.space x then rdScan n r
    else if RxByte.word x then
      if (x :: r.takeWhile RxByte.word).all RxByte.digit then
        if isFrac (r.dropWhile RxByte.word) then none
        else (rdScan n (r.dropWhile RxByte.word)).map (.number (nameOf (x :: r.takeWhile RxByte.word)) :: ·)
      else (rdScan n (r.dropWhile RxByte.word)).map (RdTok.ofName (nameOf (x :: r.takeWhile RxByte.word)) :: ·)
    else if x = 47 then
      if r.head? = some 47 then rdScan n (r.tail.dropWhile (fun y => y != 10)) else none
    else if x = 45 then
      if r.takeWhile RxByte.digit = [] ∨ isFrac (r.dropWhile RxByte.digit) then none
      else (rdScan n (r.dropWhile RxByte.digit)).map (.number (nameOf (45 :: r.takeWhile RxByte.digit)) :: ·)
    else if x = 34 then
      match strSplit r with
      | some (b, u) => (rdScan n u).map (.string (nameOf (34 :: (b ++ [34]))) :: ·)
      | none => none
    else if x = 46 then
      if r.head?.any RxByte.digit then none else (rdScan n r).map (.period :: ·)
    else match RdTok.ofByte x with
      | some t => (rdScan n r).map (t :: ·)
      | none => none

theorem rdScan_text : ∀ {n : Nat} {s : List UInt8} {ts : List RdTok}, rdScan n s = some ts → RdText s ts
  | 0, _, _, h => by simp [rdScan] at h
  | _ + 1, [], ts, h => by
    simp only [rdScan, Option.some.injEq] at h
    rw [← h]
    exact .done
  | n + 1, x :: r, ts, h => by
    rw [rdScan] at h
    split at h
    · rename_i hx
      exact .space hx (rdScan_text h)
    split at h
    · rename_i hx
      have e : x :: r = (x :: r.takeWhile RxByte.word) ++ r.dropWhile RxByte.word := by
        rw [List.cons_append, List.takeWhile_append_dropWhile]
      split at h
      · rename_i hd
        rw [List.all_eq_true] at hd
        split at h
        · cases h
        · rename_i hf
          rw [Option.map_eq_some_iff] at h
          obtain ⟨ts', h, rfl⟩ := h
          rw [e]
          exact .int (by simp) hd (drop_stop _ _) (noFrac_of (by simpa using hf)) (rdScan_text h)
      · rename_i hd
        rw [List.all_eq_true] at hd
        rw [Option.map_eq_some_iff] at h
        obtain ⟨ts', h, rfl⟩ := h
        rw [e]
        refine .name (by simp) ?_ ?_ (drop_stop _ _) (rdScan_text h)
        · intro y hy
          rcases List.mem_cons.1 hy with rfl | hy
          · exact hx
          · exact take_all _ _ y hy
        · simp only [Classical.not_forall] at hd
          obtain ⟨y, hy, hn⟩ := hd
          exact ⟨y, hy, by simpa using hn⟩
    split at h
    · rename_i hx
      subst hx
      split at h
      · rename_i hr
        cases r with
        | nil => cases hr
        | cons y u =>
          simp only [List.head?_cons, Option.some.injEq] at hr
          subst hr
          rw [show u = u.takeWhile (fun y => y != 10) ++ u.dropWhile (fun y => y != 10) from
            List.takeWhile_append_dropWhile.symm]
          refine .comment ?_ ?_ (rdScan_text h)
          · intro y hy
            simpa using take_all _ _ y hy
          · intro y v hv
            simpa using drop_stop (fun y => y != 10) _ y v hv
      · cases h
    split at h
    · rename_i hx
      subst hx
      split at h
      · cases h
      · rename_i hd
        rw [not_or] at hd
        rw [Option.map_eq_some_iff] at h
        obtain ⟨ts', h, rfl⟩ := h
        conv => lhs; rw [show r = r.takeWhile RxByte.digit ++ r.dropWhile RxByte.digit from
          List.takeWhile_append_dropWhile.symm]
        exact .neg hd.1 (take_all _ _) (drop_stop _ _) (noFrac_of (by simpa using hd.2)) (rdScan_text h)
    split at h
    · rename_i hx
      subst hx
      split at h
      · rename_i b u hs
        rw [Option.map_eq_some_iff] at h
        obtain ⟨ts', h, rfl⟩ := h
        obtain ⟨h1, h2⟩ := strSplit_body hs
        rw [h2]
        exact .string h1 (rdScan_text h)
      · cases h
    split at h
    · rename_i hx
      subst hx
      split at h
      · cases h
      · rename_i hd
        rw [Option.map_eq_some_iff] at h
        obtain ⟨ts', h, rfl⟩ := h
        refine .period ?_ (rdScan_text h)
        intro y t e
        subst e
        simpa using hd
    split at h
    · rename_i t ht
      rw [Option.map_eq_some_iff] at h
      obtain ⟨ts', h, rfl⟩ := h
      exact .one ht (rdScan_text h)
    · cases h

end Verif.Spec

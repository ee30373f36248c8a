import Verif.Model.Names
import Mathlib.Data.Nat.Digits.Lemmas
import Mathlib.Tactic.Ring
import Mathlib.Tactic.Linarith
import Mathlib.Tactic.IntervalCases

/-! # C15: generated names -/

namespace OM

/-- Digits of `n` in base 63, least significant first, at least one. -/
def digs (n : Nat) : List Nat := if n = 0 then [0] else Nat.digits 63 n

def hexChar (d : Nat) : Char := charSet.getD d '0'

theorem hexLoop_eq (n : Nat) : ∀ (pre rep : List Char),
    hexLoop n pre rep = (List.dropLast^[(digs n).length] pre) ++ ((digs n).reverse.map hexChar ++ rep) := by
  induction n using Nat.strong_induction_on with
  | _ n ih =>
    intro pre rep
    rw [hexLoop]
    have hdiv : (n - n % 63) / 63 = n / 63 := by omega
    rw [hdiv]
    split
    · rename_i h
      have hlt : n < 63 := by omega
      have hd : digs n = [n % 63] := by
        unfold digs
        split
        · rename_i h0; subst h0; rfl
        · rename_i h0
          rw [Nat.digits_of_lt 63 n h0 hlt, Nat.mod_eq_of_lt hlt]
      rw [hd]
      simp [hexChar]
    · rename_i h
      have h0 : n ≠ 0 := by omega
      have hn : n / 63 ≠ 0 := h
      have hd : digs n = n % 63 :: digs (n / 63) := by
        unfold digs
        rw [if_neg h0, if_neg hn, Nat.digits_def' (by norm_num) (by omega)]
      rw [ih (n / 63) (by omega), hd]
      simp [hexChar]

/-- The number written in a list of characters. -/
def dec (l : List Char) : Nat := l.foldl (fun acc c => acc * 63 + charSet.idxOf c) 0

theorem dec_foldl (l : List Char) (a : Nat) :
    l.foldl (fun acc c => acc * 63 + charSet.idxOf c) a = a * 63 ^ l.length + dec l := by
  unfold dec
  induction l generalizing a with
  | nil => simp
  | cons c l ih =>
    rw [List.foldl_cons, List.foldl_cons, ih, ih (0 * 63 + _)]
    simp only [List.length_cons, pow_succ]
    ring

theorem dec_append (x y : List Char) : dec (x ++ y) = dec x * 63 ^ y.length + dec y := by
  rw [dec, List.foldl_append, dec_foldl]; rfl

theorem idxOf_hexChar : ∀ d < 63, charSet.idxOf (hexChar d) = d := by decide

theorem dec_digits (l : List Nat) (h : ∀ d ∈ l, d < 63) :
    dec (l.reverse.map hexChar) = Nat.ofDigits 63 l := by
  induction l with
  | nil => rfl
  | cons d l ih =>
    rw [List.reverse_cons, List.map_append, dec_append, ih fun x hx => h x (List.mem_cons_of_mem _ hx),
      Nat.ofDigits_cons]
    have : dec (List.map hexChar [d]) = d := by
      simp [dec, idxOf_hexChar d (h d List.mem_cons_self)]
    rw [this]
    simp
    ring

theorem digs_lt (n d : Nat) (h : d ∈ digs n) : d < 63 := by
  unfold digs at h
  split at h
  · simp at h; omega
  · exact Nat.digits_lt_base (by norm_num) h

theorem ofDigits_digs (n : Nat) : Nat.ofDigits 63 (digs n) = n := by
  unfold digs
  split
  · rename_i h; simp [h]
  · exact Nat.ofDigits_digits 63 n

theorem digs_length (n : Nat) : (digs n).length ≤ 4 ↔ n < 63 ^ 4 := by
  unfold digs
  split
  · rename_i h; simp [h]
  · exact Nat.digits_length_le_iff (by norm_num) n

theorem digs_pos (n : Nat) : 0 < (digs n).length := by
  unfold digs
  split
  · simp
  · rename_i h
    exact List.length_pos_of_ne_nil (Nat.digits_ne_nil_iff_ne_zero.2 h)

theorem pre_long (k : Nat) (h : 5 ≤ k) : List.dropLast^[k] ("_0000".toList) = [] := by
  have h5 : List.dropLast^[5] ("_0000".toList) = [] := by decide
  obtain ⟨m, rfl⟩ := Nat.exists_eq_add_of_le' h
  rw [Function.iterate_add_apply, h5]
  induction m with
  | zero => rfl
  | succ m ih => rw [Function.iterate_succ_apply', ih (by omega)]; rfl

/-- The characters of the name determine the number up to one ambiguity. -/
theorem dec_name (n : Nat) : dec (hexLoop n "_0000".toList []) =
    if n < 63 ^ 4 then 62 * 63 ^ 4 + n else n := by
  rw [hexLoop_eq, List.append_nil, dec_append, dec_digits _ (digs_lt n), ofDigits_digs]
  have hp := digs_pos n
  have hl : (List.map hexChar (digs n).reverse).length = (digs n).length := by simp
  rw [hl]
  split
  · rename_i h
    have h4 := (digs_length n).2 h
    generalize (digs n).length = k at *
    interval_cases k
    · have : dec (List.dropLast^[1] "_0000".toList) = 62 * 63 ^ 3 := by decide
      rw [this]; ring
    · have : dec (List.dropLast^[2] "_0000".toList) = 62 * 63 ^ 2 := by decide
      rw [this]; ring
    · have : dec (List.dropLast^[3] "_0000".toList) = 62 * 63 := by decide
      rw [this]; ring
    · have : dec (List.dropLast^[4] "_0000".toList) = 62 := by decide
      rw [this]
  · rename_i h
    have h5 : 5 ≤ (digs n).length := by
      by_contra hh
      exact h ((digs_length n).1 (by omega))
    rw [pre_long _ h5]
    simp [dec]

/-- Names of the same length with the same number are the same. -/
theorem dec_inj : ∀ (x y : List Char), x.length = y.length → (∀ c ∈ x, c ∈ charSet) →
    (∀ c ∈ y, c ∈ charSet) → dec x = dec y → x = y := by
  intro x
  induction x using List.reverseRecOn with
  | nil => intro y h _ _ _; exact (List.length_eq_zero_iff.1 h.symm).symm
  | append_singleton x c ih =>
    intro y hlen hx hy he
    induction y using List.reverseRecOn with
    | nil => simp at hlen
    | append_singleton y d _ =>
      have hc : c ∈ charSet := hx c (by simp)
      have hd : d ∈ charSet := hy d (by simp)
      rw [dec_append, dec_append] at he
      have h1 : dec [c] = charSet.idxOf c := by simp [dec]
      have h2 : dec [d] = charSet.idxOf d := by simp [dec]
      have l63 : charSet.length = 63 := by decide
      have h3 : charSet.idxOf c < 63 := by rw [← l63]; exact List.idxOf_lt_length_iff.2 hc
      have h4 : charSet.idxOf d < 63 := by rw [← l63]; exact List.idxOf_lt_length_iff.2 hd
      simp only [List.length_singleton, pow_one] at he
      rw [h1, h2] at he
      have h5 : charSet.idxOf c = charSet.idxOf d := by omega
      have h6 : dec x = dec y := by omega
      rw [(List.idxOf_inj hc).1 h5, ih y (by simpa using hlen) (fun a ha => hx a (by simp [ha]))
        (fun a ha => hy a (by simp [ha])) h6]

theorem name_chars (n : Nat) : ∀ c ∈ hexLoop n "_0000".toList [], c ∈ charSet := by
  rw [hexLoop_eq]
  intro c hc
  rw [List.append_nil, List.mem_append] at hc
  rcases hc with hc | hc
  · have h0 : ∀ k, ∀ c ∈ List.dropLast^[k] "_0000".toList, c ∈ "_0000".toList := by
      intro k
      induction k with
      | zero => intro c hc; exact hc
      | succ k ih =>
        intro c hc
        rw [Function.iterate_succ_apply'] at hc
        exact ih c (List.mem_of_mem_dropLast hc)
    have h1 : ∀ c ∈ "_0000".toList, c ∈ charSet := by decide
    exact h1 c (h0 _ c hc)
  · obtain ⟨d, hd, rfl⟩ := List.mem_map.1 hc
    have h1 : ∀ d < 63, hexChar d ∈ charSet := by decide
    exact h1 d (digs_lt n d (by simpa using hd))

theorem name_length (n : Nat) (h : n < 63 ^ 5) : (hexLoop n "_0000".toList []).length = 5 := by
  rw [hexLoop_eq, List.append_nil, List.length_append, List.length_map, List.length_reverse]
  have hp := digs_pos n
  have h5 : (digs n).length ≤ 5 := by
    unfold digs
    split
    · simp
    · exact (Nat.digits_length_le_iff (by norm_num) n).2 h
  have h6 : ∀ k ≤ 5, (List.dropLast^[k] "_0000".toList).length + k = 5 := by decide
  exact h6 _ h5

/-- **C15, exact.** The names generated for the `a`-th and the `b`-th expression are equal iff
`a = b`, or one is below 63^4 and the other is exactly 62·63^4 higher. -/
theorem c15_collisions_exact (a b : Nat) : genHexName a = genHexName b ↔
    a = b ∨ (a < 63 ^ 4 ∧ b = 62 * 63 ^ 4 + a) ∨ (b < 63 ^ 4 ∧ a = 62 * 63 ^ 4 + b) := by
  constructor
  · intro h
    have h1 := String.ofList_injective h
    have h2 := congrArg dec h1
    rw [dec_name, dec_name] at h2
    split at h2 <;> split at h2 <;> omega
  · have key : ∀ m < 63 ^ 4, genHexName m = genHexName (62 * 63 ^ 4 + m) := by
      intro m hm
      unfold genHexName
      congr 1
      apply dec_inj _ _ _ (name_chars _) (name_chars _)
      · rw [dec_name, dec_name, if_pos hm, if_neg (by omega)]
      · rw [name_length _ (by omega), name_length _ (by omega)]
    rintro (rfl | ⟨h1, rfl⟩ | ⟨h1, rfl⟩)
    · rfl
    · exact key a h1
    · exact (key b h1).symm

/-- **C15**, what holds: the first 62·63^4 (about 10^9) generated names are different. -/
theorem c15_unique_partial {a b : Nat} (ha : a < 62 * 63 ^ 4) (hb : b < 62 * 63 ^ 4)
    (h : genHexName a = genHexName b) : a = b := by
  rcases (c15_collisions_exact a b).1 h with h | h | h <;> omega

/-- **C15, refuted.** The first collision. -/
theorem c15_collision : genHexName 0 = genHexName 976683582 := by
  rw [c15_collisions_exact]; norm_num

end OM

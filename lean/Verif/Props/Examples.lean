import Verif.Model.Examples
import Mathlib.Data.List.Basic
import Mathlib.Data.Char
import Mathlib.Tactic.IntervalCases

/-!
# The generated example scripts (C84)
-/

namespace OM

namespace Spec

/-- A word of a name: a capital letter followed by small letters and digits. -/
structure Word where
  cap : Char
  tail : List Char
  capital : cap.isUpper = true
  small : ∀ c ∈ tail, c.isLower = true ∨ c.isDigit = true

/-- The word as it stands in the name of a class. -/
def Word.camel (w : Word) : List Char := w.cap :: w.tail

/-- The word in small letters. -/
def Word.snake (w : Word) : List Char := w.cap.toLower :: w.tail

/-- Words written without anything between them: `OneTwo`. -/
def camel (ws : List Word) : List Char := ws.flatMap Word.camel

/-- Words in small letters with underscores between them: `one_two`. -/
def snake : List Word → List Char
  | [] => []
  | [w] => w.snake
  | w :: ws => w.snake ++ '_' :: snake ws

/-- After a word of one letter comes a word whose second letter is small (`RotXAxis`, not `RotXY`). -/
def Split : List Word → Prop
  | w :: v :: ws => (w.tail = [] → ∃ l t, v.tail = l :: t ∧ l.isLower = true) ∧ Split (v :: ws)
  | _ => True

end Spec

open Spec

theorem not_upper_of_small {c : Char} (h : c.isLower = true ∨ c.isDigit = true) : c.isUpper = false := by
  simp only [Char.isLower, Char.isDigit, Char.isUpper, Bool.and_eq_true, decide_eq_true_eq, ge_iff_le,
    decide_eq_false_iff_not] at *
  intro hu
  rcases h with h | h
  · exact absurd (UInt32.le_trans h.1 hu.2) (by decide)
  · exact absurd (UInt32.le_trans hu.1 h.2) (by decide)

theorem not_lower_of_upper {c : Char} (h : c.isUpper = true) : c.isLower = false := by
  by_contra hc
  have := not_upper_of_small (.inl (by simpa using hc))
  rw [this] at h
  cases h

/-- Words joined with or without underscores; never without one after a word of one letter. -/
inductive Joined : List Word → List Char → Prop
  | one (w : Word) : Joined [w] w.camel
  | under (w : Word) {ws : List Word} {t : List Char} : Joined ws t → Joined (w :: ws) (w.camel ++ '_' :: t)
  | bare (w : Word) {ws : List Word} {t : List Char} : w.tail ≠ [] → Joined ws t → Joined (w :: ws) (w.camel ++ t)

theorem splitWords_cons (b : Bool) (x u l : Char) (rest : List Char) : splitWords b (x :: u :: l :: rest) =
    if b && x.isLower then x :: splitWords true (u :: l :: rest)
    else if u.isUpper && l.isLower then x :: '_' :: u :: l :: splitWords true rest
    else x :: splitWords false (u :: l :: rest) := by
  rw [splitWords]

/-- A character that is not followed by a capital letter is copied. -/
theorem splitWords_copy (b : Bool) (x u : Char) (rest : List Char) (h : u.isUpper = false) :
    ∃ b', splitWords b (x :: u :: rest) = x :: splitWords b' (u :: rest) := by
  match rest with
  | [] => exact ⟨b, by simp [splitWords]⟩
  | l :: rest =>
    rw [splitWords_cons]
    split
    · exact ⟨true, rfl⟩
    · rw [if_neg (by simp [h])]
      exact ⟨false, rfl⟩

/-- The tail of a word, up to its last character. -/
theorem splitWords_tail (b : Bool) (x : Char) (tail rest : List Char) (h : ∀ c ∈ tail, c.isLower = true ∨ c.isDigit = true) :
    ∃ b', splitWords b (x :: tail ++ rest) =
      (x :: tail).dropLast ++ splitWords b' ((x :: tail).getLast (by simp) :: rest) := by
  induction tail generalizing b x with
  | nil => exact ⟨b, rfl⟩
  | cons y tail ih =>
    obtain ⟨b1, h1⟩ := splitWords_copy b x y (tail ++ rest) (not_upper_of_small (h y (by simp)))
    obtain ⟨b2, h2⟩ := ih b1 y (fun c hc => h c (by simp [hc]))
    refine ⟨b2, ?_⟩
    rw [List.cons_append, List.cons_append, h1, ← List.cons_append, h2]
    simp

/-- A character followed by a capital letter: an underscore follows if the letter after that is small, unless the character
still belongs to the word before. -/
theorem splitWords_at (b : Bool) (y u : Char) (rest : List Char) (hu : u.isUpper = true) :
    (∃ l r, rest = l :: r ∧ l.isLower = true ∧ splitWords b (y :: u :: rest) = y :: '_' :: u :: l :: splitWords true r) ∨
    ((∃ b', splitWords b (y :: u :: rest) = y :: splitWords b' (u :: rest)) ∧
      (y.isLower = false → ∀ l r, rest = l :: r → l.isLower = false)) := by
  match rest with
  | [] => exact .inr ⟨⟨b, by simp [splitWords]⟩, fun _ l r h => by cases h⟩
  | l :: r =>
    rw [splitWords_cons]
    by_cases h1 : (b && y.isLower) = true
    · rw [if_pos h1]
      refine .inr ⟨⟨true, rfl⟩, fun hy => ?_⟩
      rw [hy, Bool.and_false] at h1
      cases h1
    · rw [if_neg h1]
      by_cases hl : l.isLower = true
      · rw [if_pos (by simp [hu, hl])]
        exact .inl ⟨l, r, rfl, hl, rfl⟩
      · rw [if_neg (by simp [hl])]
        refine .inr ⟨⟨false, rfl⟩, fun _ l' r' h => ?_⟩
        cases h
        simpa using hl

theorem camel_cons (w : Word) (ws : List Word) : camel (w :: ws) = w.cap :: (w.tail ++ camel ws) := by
  simp [camel, Word.camel]

/-- What `splitWords` does with the rest of a word and the words after it. -/
theorem splitWords_rest (ws : List Word) (hs : Split ws) :
    (∀ (b : Bool) (x : Char) (tail : List Char), (∀ c ∈ tail, c.isLower = true ∨ c.isDigit = true) →
      (∀ v vs, ws = v :: vs → tail = [] → x.isUpper = true → ∃ l t, v.tail = l :: t ∧ l.isLower = true) →
      (x.isUpper = true ∨ (x.isLower = true ∨ x.isDigit = true)) →
      ∃ s, splitWords b (x :: tail ++ camel ws) = x :: tail ++ s ∧
        ((ws = [] ∧ s = []) ∨ ∃ t, Joined ws t ∧ (s = '_' :: t ∨
          (s = t ∧ (tail ≠ [] ∨ (x.isLower = true ∨ x.isDigit = true)))))) ∧
    (ws ≠ [] → ∀ b, Joined ws (splitWords b (camel ws))) := by
  induction ws with
  | nil =>
    refine ⟨fun b x tail ht _ _ => ⟨[], ?_, .inl ⟨rfl, rfl⟩⟩, fun h => absurd rfl h⟩
    obtain ⟨b', h⟩ := splitWords_tail b x tail [] ht
    rw [show camel [] = [] from rfl, h, splitWords, List.append_nil]
    · exact List.dropLast_append_getLast _
    · simp
  | cons v ws ih =>
    have hs' : Split ws := by
      match ws, hs with
      | [], _ => trivial
      | _ :: _, hs => exact hs.2
    obtain ⟨ihK, ihS⟩ := ih hs'
    have hstart : ∀ b, Joined (v :: ws) (splitWords b (camel (v :: ws))) := by
      intro b
      obtain ⟨s, h1, h2⟩ := ihK b v.cap v.tail v.small (by
        rintro w vs rfl ht _
        exact hs.1 ht) (.inl v.capital)
      rw [camel_cons, ← List.cons_append, h1]
      rcases h2 with ⟨rfl, rfl⟩ | ⟨t, hj, rfl | ⟨rfl, hc⟩⟩
      · rw [List.append_nil]
        exact .one v
      · exact .under v hj
      · refine .bare v ?_ hj
        rcases hc with hc | hc
        · exact hc
        · have := v.capital
          rw [not_upper_of_small hc] at this
          cases this
    refine ⟨fun b x tail ht hx hx' => ?_, fun _ => hstart⟩
    obtain ⟨b1, h1⟩ := splitWords_tail b x tail (camel (v :: ws)) ht
    have hlast := List.dropLast_append_getLast (l := x :: tail) (by simp)
    rw [h1]
    generalize hy : (x :: tail).getLast (by simp) = y at *
    rw [camel_cons]
    rcases splitWords_at b1 y v.cap (v.tail ++ camel ws) v.capital with ⟨l, r, hr, hl, e⟩ | ⟨⟨b2, e⟩, hno⟩
    · rw [e]
      have hvt : ∃ t, v.tail = l :: t ∧ r = t ++ camel ws := by
        match hv : v.tail with
        | [] =>
          rw [hv, List.nil_append] at hr
          match ws, hr with
          | w :: ws, hr =>
            rw [camel_cons] at hr
            simp only [List.cons.injEq] at hr
            rw [← hr.1, not_lower_of_upper w.capital] at hl
            cases hl
        | a :: t =>
          rw [hv] at hr
          simp only [List.cons_append, List.cons.injEq] at hr
          exact ⟨t, by rw [hr.1], hr.2.symm⟩
      obtain ⟨t, hvt, rfl⟩ := hvt
      have hj : Joined (v :: ws) (v.cap :: l :: splitWords true (t ++ camel ws)) := by
        match t with
        | [] =>
          rw [List.nil_append]
          have hc : v.cap :: l :: splitWords true (camel ws) = v.camel ++ splitWords true (camel ws) := by
            simp [Word.camel, hvt]
          match ws, ihS with
          | [], _ =>
            rw [show v.cap :: l :: splitWords true (camel []) = v.camel by simp [Word.camel, hvt, camel, splitWords]]
            exact .one v
          | w :: ws, ihS =>
            rw [hc]
            exact .bare v (by simp [hvt]) (ihS (by simp) true)
        | a :: t =>
          have hsm := v.small
          rw [hvt] at hsm
          obtain ⟨s, k1, k2⟩ := ihK true a t (fun c hc => hsm c (by simp [hc])) (by
            intro _ _ _ _ ha
            rw [not_upper_of_small (hsm a (by simp))] at ha
            cases ha) (.inr (hsm a (by simp)))
          rw [k1]
          have hc : ∀ s, v.cap :: l :: (a :: t ++ s) = v.camel ++ s := by
            intro s
            simp [Word.camel, hvt]
          rw [hc]
          rcases k2 with ⟨rfl, rfl⟩ | ⟨t', hj, rfl | ⟨rfl, _⟩⟩
          · rw [List.append_nil]
            exact .one v
          · exact .under v hj
          · exact .bare v (by simp [hvt]) hj
      refine ⟨'_' :: v.cap :: l :: splitWords true (t ++ camel ws), ?_, .inr ⟨_, hj, .inl rfl⟩⟩
      rw [← hlast]
      simp
    · rw [e, ← camel_cons]
      refine ⟨splitWords b2 (camel (v :: ws)), ?_, .inr ⟨_, hstart b2, .inr ⟨rfl, ?_⟩⟩⟩
      · rw [← hlast]
        simp
      · by_contra hc
        push Not at hc
        obtain ⟨rfl, hc⟩ := hc
        have hup : x.isUpper = true := by
          rcases hx' with h | h
          · exact h
          · rcases h with h | h
            · exact absurd h hc.1
            · exact absurd h hc.2
        obtain ⟨l, t, hvt, hl⟩ := hx v ws rfl rfl hup
        have hyx : y = x := by simpa using hy.symm
        have := hno (by rw [hyx]; exact not_lower_of_upper hup) l (t ++ camel ws) (by rw [hvt]; rfl)
        rw [hl] at this
        cases this

theorem splitCapitals_skip (x : Char) (rest : List Char) (h : (x.isLower || x.isDigit) = false) :
    splitCapitals (x :: rest) = x :: splitCapitals rest := by
  match rest with
  | [] => simp [splitCapitals]
  | u :: rest => rw [splitCapitals, if_neg (by simp [h])]

theorem splitCapitals_tail (tail rest : List Char) (h : ∀ c ∈ tail, c.isLower = true ∨ c.isDigit = true)
    (hr : ∀ u r, rest = u :: r → u.isUpper = false) : splitCapitals (tail ++ rest) = tail ++ splitCapitals rest := by
  induction tail with
  | nil => rfl
  | cons x tail ih =>
    have ih := ih fun c hc => h c (by simp [hc])
    match e : tail ++ rest with
    | [] =>
      simp only [List.append_eq_nil_iff] at e
      simp [e.1, e.2, splitCapitals]
    | u :: r =>
      have hu : u.isUpper = false := by
        match tail, e with
        | [], e => exact hr u r e
        | y :: t, e =>
          simp only [List.cons_append, List.cons.injEq] at e
          exact not_upper_of_small (h u (by simp [e.1]))
      rw [List.cons_append, e, splitCapitals, if_neg (by simp [hu]), ← e, ih, List.cons_append]

theorem capital_skip {c : Char} (h : c.isUpper = true) : (c.isLower || c.isDigit) = false := by
  by_contra hc
  rw [Bool.not_eq_false, Bool.or_eq_true] at hc
  rw [not_upper_of_small hc] at h
  cases h

/-- With a capital letter after the tail of a word, an underscore is put between. -/
theorem splitCapitals_capital (tail : List Char) (u : Char) (rest : List Char)
    (h : ∀ c ∈ tail, c.isLower = true ∨ c.isDigit = true) (ht : tail ≠ []) (hu : u.isUpper = true) :
    splitCapitals (tail ++ u :: rest) = tail ++ '_' :: splitCapitals (u :: rest) := by
  induction tail with
  | nil => exact absurd rfl ht
  | cons x tail ih =>
    match tail, ih, h with
    | [], _, h =>
      have hx := h x (by simp)
      rw [List.cons_append, List.nil_append, splitCapitals, if_pos (by simpa [hu] using hx), splitCapitals_skip u rest (capital_skip hu)]
      rfl
    | y :: t, ih, h =>
      rw [List.cons_append, List.cons_append, splitCapitals,
        if_neg (by simp [not_upper_of_small (h y (by simp))]), ← List.cons_append,
        ih (fun c hc => h c (by simp [hc])) (by simp)]
      rfl

theorem toLower_small {c : Char} (h : c.isLower = true ∨ c.isDigit = true) : c.toLower = c := by
  have := not_upper_of_small h
  unfold Char.isUpper at this
  unfold Char.toLower
  rw [dif_neg]
  simpa using this

theorem joined_head {ws : List Word} {t : List Char} (h : Joined ws t) : ∃ w vs r, ws = w :: vs ∧ t = w.cap :: r := by
  cases h with
  | one w => exact ⟨w, [], w.tail, rfl, rfl⟩
  | @under w ws t _ => exact ⟨w, ws, _, rfl, rfl⟩
  | @bare w ws t _ _ => exact ⟨w, ws, _, rfl, rfl⟩

theorem word_lower (w : Word) : w.camel.map Char.toLower = w.snake := by
  unfold Word.camel Word.snake
  rw [List.map_cons]
  congr 1
  conv_rhs => rw [← List.map_id w.tail]
  exact List.map_congr_left fun c hc => toLower_small (w.small c hc)

theorem splitCapitals_joined {ws : List Word} {t : List Char} (h : Joined ws t) :
    (splitCapitals t).map Char.toLower = snake ws := by
  induction h with
  | one w =>
    have := splitCapitals_tail w.tail [] w.small (by simp)
    rw [List.append_nil] at this
    rw [Word.camel, splitCapitals_skip _ _ (capital_skip w.capital), this]
    have := word_lower w
    simpa [snake, splitCapitals, Word.camel] using this
  | @under w ws t hj ih =>
    obtain ⟨v, vs, r, rfl, rfl⟩ := joined_head hj
    rw [Word.camel, List.cons_append, splitCapitals_skip _ _ (capital_skip w.capital),
      splitCapitals_tail w.tail _ w.small (by rintro u r' h; cases h; decide), splitCapitals_skip '_' _ (by decide),
      ← List.cons_append, List.map_append]
    show w.camel.map Char.toLower ++ '_' :: (splitCapitals (v.cap :: r)).map Char.toLower = _
    rw [word_lower, ih]
    rfl
  | @bare w ws t hne hj ih =>
    obtain ⟨v, vs, r, rfl, rfl⟩ := joined_head hj
    rw [Word.camel, List.cons_append, splitCapitals_skip _ _ (capital_skip w.capital),
      splitCapitals_capital w.tail _ _ w.small hne v.capital, ← List.cons_append, List.map_append]
    show w.camel.map Char.toLower ++ '_' :: (splitCapitals (v.cap :: r)).map Char.toLower = _
    rw [word_lower, ih]
    rfl

/-- **C84.** The name of a class that consists of words becomes the words in small letters with underscores between them. -/
theorem c84_words (ws : List Word) (h : Split ws) : camelToSnake (camel ws) = snake ws := by
  match ws with
  | [] => rfl
  | w :: ws => exact splitCapitals_joined ((splitWords_rest (w :: ws) h).2 (by simp) false)

/-! ## Underscores and small letters -/

theorem splitWords_filter (b : Bool) (s : List Char) :
    (splitWords b s).filter (· != '_') = s.filter (· != '_') := by
  fun_induction splitWords b s with
  | case1 => simp_all [List.filter_cons]
  | case2 => simp_all [List.filter_cons]
  | case3 => simp_all [List.filter_cons]
  | case4 => rfl

theorem splitCapitals_filter (s : List Char) :
    (splitCapitals s).filter (· != '_') = s.filter (· != '_') := by
  fun_induction splitCapitals s with
  | case1 => simp_all [List.filter_cons]
  | case2 => simp_all [List.filter_cons]
  | case3 => rfl

theorem toUpper_toLower {c : Char} (h : c.isUpper = true) : c.toLower.toUpper = c ∧ c.toLower.isLower = true := by
  unfold Char.isUpper at h
  simp only [decide_eq_true_eq] at h
  have h1 : c.toNat ≤ 90 := h.2
  have h0 : 65 ≤ c.toNat := h.1
  rw [← Char.ofNat_toNat c]
  generalize c.toNat = n at *
  interval_cases n <;> decide

theorem toLower_other {c : Char} (h : ¬ c.isUpper = true) : c.toLower = c := by
  unfold Char.isUpper at h
  simp only [decide_eq_true_eq] at h
  unfold Char.toLower
  rw [dif_neg h]

theorem toLower_under (c : Char) : (c.toLower != '_') = (c != '_') := by
  by_cases h : c.isUpper = true
  · have h1 : c.toLower ≠ '_' := by
      intro e
      have := (toUpper_toLower h).2
      rw [e] at this
      exact absurd this (by decide)
    have h2 : c ≠ '_' := by
      rintro rfl
      exact absurd h (by decide)
    rw [bne_iff_ne.2 h1, bne_iff_ne.2 h2]
  · rw [toLower_other h]

/-- **C84.** Whatever the name, the characters other than underscores are those of the name in small letters, in their
order, and no capital letter is left. -/
theorem c84_letters (name : List Char) :
    (camelToSnake name).filter (· != '_') = (name.filter (· != '_')).map Char.toLower ∧
    ∀ c ∈ camelToSnake name, c.isUpper = false := by
  constructor
  · unfold camelToSnake
    rw [List.filter_map, show ((· != '_') ∘ Char.toLower) = fun c : Char => c != '_' from funext toLower_under,
      splitCapitals_filter, splitWords_filter]
  · intro c hc
    obtain ⟨d, _, rfl⟩ := List.mem_map.1 hc
    by_cases h : d.isUpper = true
    · exact not_upper_of_small (.inl (toUpper_toLower h).2)
    · rw [toLower_other h]
      simpa using h

/-- A name in small letters stays as it is. -/
theorem camelToSnake_small (s : List Char) (h : ∀ c ∈ s, c.isUpper = false) : camelToSnake s = s := by
  have h1 : ∀ b, splitWords b s = s := by
    intro b
    fun_induction splitWords b s with
    | case1 _ _ _ _ _ _ ih => rw [ih fun c hc => h c (List.mem_cons_of_mem _ hc)]
    | case2 _ _ u _ _ _ hu _ =>
      have := h u (by simp)
      simp [this] at hu
    | case3 _ _ _ _ _ _ _ ih => rw [ih fun c hc => h c (List.mem_cons_of_mem _ hc)]
    | case4 => rfl
  have h2 : splitCapitals s = s := by
    clear h1
    fun_induction splitCapitals s with
    | case1 x u rest hu _ =>
      have := h u (by simp)
      simp [this] at hu
    | case2 _ _ _ _ ih => rw [ih fun c hc => h c (List.mem_cons_of_mem _ hc)]
    | case3 => rfl
  unfold camelToSnake
  rw [h1, h2]
  conv_rhs => rw [← List.map_id s]
  exact List.map_congr_left fun c hc => toLower_other (by simp [h c hc])

/-- **C84.** Converting twice is the same as converting once. -/
theorem c84_idempotent (name : List Char) : camelToSnake (camelToSnake name) = camelToSnake name :=
  camelToSnake_small _ (c84_letters name).2

/-! ## Names from snake case back -/

/-- Capital letters at the start and after underscores, which are removed. -/
def unsnake : Bool → List Char → List Char
  | _, [] => []
  | up, c :: s => if c = '_' then unsnake true s else (if up then c.toUpper else c) :: unsnake false s

theorem under_of_small {c : Char} (h : c.isLower = true ∨ c.isDigit = true) : c ≠ '_' := by
  rintro rfl
  revert h
  decide

theorem unsnake_tail (tail rest : List Char) (h : ∀ c ∈ tail, c.isLower = true ∨ c.isDigit = true) :
    unsnake false (tail ++ rest) = tail ++ unsnake false rest := by
  induction tail with
  | nil => rfl
  | cons c tail ih =>
    rw [List.cons_append, unsnake, if_neg (under_of_small (h c (by simp))), ih fun c hc => h c (by simp [hc])]
    rfl

theorem unsnake_word (w : Word) (rest : List Char) : unsnake true (w.snake ++ rest) = w.camel ++ unsnake false rest := by
  obtain ⟨h1, h2⟩ := toUpper_toLower w.capital
  rw [Word.snake, List.cons_append, unsnake, if_neg (under_of_small (.inl h2)), unsnake_tail _ _ w.small, if_pos rfl, h1]
  rfl

theorem unsnake_snake : ∀ ws : List Word, unsnake true (snake ws) = camel ws
  | [] => rfl
  | [w] => by
    have := unsnake_word w []
    simpa [snake, camel, unsnake] using this
  | w :: v :: ws => by
    rw [snake, unsnake_word, unsnake, if_pos rfl, unsnake_snake (v :: ws)]
    · simp [camel]
    · simp

/-- **C84.** Names of classes that consist of words are different after the conversion if they were before. -/
theorem c84_injective {ws vs : List Word} (hw : Split ws) (hv : Split vs)
    (h : camelToSnake (camel ws) = camelToSnake (camel vs)) : camel ws = camel vs := by
  rw [c84_words ws hw, c84_words vs hv] at h
  rw [← unsnake_snake, h, unsnake_snake]

/-! ## The scripts -/

/-- The words `Example` and `Error`. -/
def exampleWord : Word := ⟨'E', "xample".toList, by decide, by decide⟩
def errorWord : Word := ⟨'E', "rror".toList, by decide, by decide⟩

theorem snake_head (w v : Word) (ws : List Word) : snake (w :: v :: ws) = w.snake ++ '_' :: snake (v :: ws) := by
  rw [snake]
  simp

theorem snake_no_under (w : Word) : '_' ∉ w.snake := by
  unfold Word.snake
  rw [List.mem_cons, not_or]
  refine ⟨fun e => ?_, fun hm => under_of_small (w.small _ hm) rfl⟩
  exact under_of_small (.inl (toUpper_toLower w.capital).2) e.symm

/-- The first word of a name, from the name in small letters. -/
theorem snake_prefix {p : List Char} (hp : '_' ∉ p) (ws : List Word) (h : (p ++ ['_']) <+: snake ws) :
    ∃ w v vs, ws = w :: v :: vs ∧ w.snake = p := by
  obtain ⟨r, hr⟩ := h
  match ws with
  | [] => simp [snake] at hr
  | [w] =>
    exfalso
    refine snake_no_under w ?_
    rw [show w.snake = snake [w] from rfl, ← hr]
    simp
  | w :: v :: vs =>
    refine ⟨w, v, vs, rfl, ?_⟩
    rw [snake_head, List.append_assoc, List.singleton_append] at hr
    have h1 := congrArg (List.takeWhile (· != '_')) hr
    have hno : ∀ l : List Char, '_' ∉ l → ∀ r, (l ++ '_' :: r).takeWhile (· != '_') = l := by
      intro l hl r
      rw [List.takeWhile_append_of_pos, List.takeWhile_cons_of_neg (by simp), List.append_nil]
      intro c hc
      rw [bne_iff_ne]
      rintro rfl
      exact hl hc
    rw [hno p hp, hno _ (snake_no_under w)] at h1
    exact h1.symm

/-- **C84.** Which classes get a script, and where: those whose name consists of the word `Example` or `Error` and at least
one more word. The script is named after the source file and the further words. -/
theorem c84_scripts (base : List Char) (w : Word) (ws : List Word) (h : Split (w :: ws)) (dir : ScriptDir) (file : List Char) :
    exampleScript base (camel (w :: ws)) = some (dir, file) ↔
      ws ≠ [] ∧ (dir = .valid ∧ w.camel = "Example".toList ∨ dir = .invalid ∧ w.camel = "Error".toList) ∧
      file = base ++ '_' :: snake ws ++ ".py".toList := by
  have hback : ∀ v : Word, w.snake = v.snake → w.camel = v.camel := by
    intro v hv
    have h1 := unsnake_word w []
    have h2 := unsnake_word v []
    rw [hv, h2] at h1
    simpa [unsnake] using h1.symm
  have hfwd : ∀ v : Word, w.camel = v.camel → w.snake = v.snake := fun v hv => by
    rw [← word_lower, hv, word_lower]
  have hex : exampleWord.camel = "Example".toList := rfl
  have her : errorWord.camel = "Error".toList := rfl
  have hex' : exampleWord.snake = "example".toList := by decide
  have her' : errorWord.snake = "error".toList := by decide
  have hpre : ∀ p : List Char, '_' ∉ p → ((snake (w :: ws)).take (p.length + 1) = p ++ ['_'] ↔ ws ≠ [] ∧ w.snake = p) := by
    intro p hp
    constructor
    · intro e
      obtain ⟨w', v, vs, h1, h2⟩ := snake_prefix hp (w :: ws) (e ▸ List.take_prefix _ _)
      simp only [List.cons.injEq] at h1
      exact ⟨by simp [h1.2], by rw [h1.1]; exact h2⟩
    · rintro ⟨h1, rfl⟩
      match ws, h1 with
      | v :: vs, _ =>
        rw [snake_head, show w.snake ++ '_' :: snake (v :: vs) = (w.snake ++ ['_']) ++ snake (v :: vs) by simp,
          List.take_left' (by simp)]
  have hdrop : ws ≠ [] → (snake (w :: ws)).drop (w.snake.length + 1) = snake ws := by
    intro h1
    match ws, h1 with
    | v :: vs, _ =>
      rw [snake_head, show w.snake ++ '_' :: snake (v :: vs) = (w.snake ++ ['_']) ++ snake (v :: vs) by simp,
        List.drop_left' (by simp)]
  have h8 := hpre "example".toList (by decide)
  have h6 := hpre "error".toList (by decide)
  unfold exampleScript
  simp only [c84_words _ h]
  by_cases c8 : (snake (w :: ws)).take 8 = "example_".toList
  · rw [if_pos c8]
    obtain ⟨k1, k2⟩ := h8.1 c8
    have hd := hdrop k1
    rw [k2] at hd
    have hc := hback exampleWord (k2.trans hex'.symm)
    rw [show (snake (w :: ws)).drop 8 = snake ws from hd]
    simp only [Option.some.injEq, Prod.mk.injEq]
    constructor
    · rintro ⟨rfl, rfl⟩
      exact ⟨k1, .inl ⟨rfl, hc⟩, rfl⟩
    · rintro ⟨_, ⟨rfl, _⟩ | ⟨_, he⟩, rfl⟩
      · exact ⟨rfl, rfl⟩
      · rw [hc] at he
        exact absurd he (by decide)
  · rw [if_neg c8]
    have n8 : ¬ (ws ≠ [] ∧ w.camel = "Example".toList) := fun hh =>
      c8 (h8.2 ⟨hh.1, (hfwd exampleWord hh.2).trans hex'⟩)
    by_cases c6 : (snake (w :: ws)).take 6 = "error_".toList
    · rw [if_pos c6]
      obtain ⟨k1, k2⟩ := h6.1 c6
      have hd := hdrop k1
      rw [k2] at hd
      have hc := hback errorWord (k2.trans her'.symm)
      rw [show (snake (w :: ws)).drop 6 = snake ws from hd]
      simp only [Option.some.injEq, Prod.mk.injEq]
      constructor
      · rintro ⟨rfl, rfl⟩
        exact ⟨k1, .inr ⟨rfl, hc⟩, rfl⟩
      · rintro ⟨_, ⟨_, he⟩ | ⟨rfl, _⟩, rfl⟩
        · rw [hc] at he
          exact absurd he (by decide)
        · exact ⟨rfl, rfl⟩
    · rw [if_neg c6]
      constructor
      · intro h; cases h
      · rintro ⟨k1, ⟨_, he⟩ | ⟨_, he⟩, _⟩
        · exact absurd ⟨k1, he⟩ n8
        · exact absurd (h6.2 ⟨k1, (hfwd errorWord he).trans her'⟩) c6

theorem exampleScript_snake {base cls : List Char} {p : ScriptDir × List Char} (h : exampleScript base cls = some p) :
    ∃ r, camelToSnake cls = (match p.1 with | .valid => "example_".toList | .invalid => "error_".toList) ++ r ∧
      p.2 = base ++ '_' :: r ++ ".py".toList := by
  unfold exampleScript at h
  simp only at h
  split at h
  · rename_i e
    cases h
    refine ⟨(camelToSnake cls).drop 8, ?_, rfl⟩
    conv_lhs => rw [← List.take_append_drop 8 (camelToSnake cls), e]
  · split at h
    · rename_i e
      cases h
      refine ⟨(camelToSnake cls).drop 6, ?_, rfl⟩
      conv_lhs => rw [← List.take_append_drop 6 (camelToSnake cls), e]
    · cases h

/-- **C84, partial.** If the names of the exported classes consist of words, and no source file is named like another one followed by
an underscore and more, then after the export every exported class has its own script. Missing: the claim is false without
these conditions, see below. -/
theorem c84_export_partial (files : List (List Char × List (List Char)))
    (hbase : ∀ f ∈ files, ∀ f' ∈ files, (f.1 ++ ['_']) <+: (f'.1 ++ ['_']) → f.1 = f'.1)
    (hwords : ∀ f ∈ files, ∀ cls ∈ f.2, exampleScript f.1 cls ≠ none → ∃ ws, Split ws ∧ cls = camel ws)
    {f : List Char × List (List Char)} (hf : f ∈ files) {cls : List Char} (hc : cls ∈ f.2) {p : ScriptDir × List Char}
    (hp : exampleScript f.1 cls = some p) : exported files p = some (f.1, cls) := by
  have huniq : ∀ w ∈ exportWrites files, w.1 = p → w.2 = (f.1, cls) := by
    intro w hw he
    unfold exportWrites at hw
    simp only [List.mem_flatMap, List.mem_filterMap, Option.map_eq_some_iff] at hw
    obtain ⟨f', hf', cls', hc', p', hp', rfl⟩ := hw
    simp only at he
    subst he
    obtain ⟨r, h1, h2⟩ := exampleScript_snake hp
    obtain ⟨r', h1', h2'⟩ := exampleScript_snake hp'
    rw [h2', List.append_cancel_right_eq] at h2
    have e1 : f'.1 ++ ['_'] ++ r' = f.1 ++ ['_'] ++ r := by simpa using h2
    have hb : f'.1 = f.1 := by
      rcases Nat.le_total (f'.1 ++ ['_']).length (f.1 ++ ['_']).length with hle | hle
      · exact hbase f' hf' f hf (List.prefix_of_prefix_length_le (e1 ▸ List.prefix_append _ _) (List.prefix_append _ _) hle)
      · exact (hbase f hf f' hf' (List.prefix_of_prefix_length_le (l₃ := f'.1 ++ ['_'] ++ r') (e1.symm ▸ List.prefix_append _ _) (List.prefix_append _ _) hle)).symm
    rw [hb, List.append_cancel_left_eq] at e1
    subst e1
    obtain ⟨ws, hs, rfl⟩ := hwords f hf cls hc (by rw [hp]; simp)
    obtain ⟨ws', hs', rfl⟩ := hwords f' hf' cls' hc' (by rw [hp']; simp)
    simp only [Prod.mk.injEq]
    exact ⟨hb, c84_injective hs' hs (by rw [h1, h1'])⟩
  have hmem : (p, (f.1, cls)) ∈ exportWrites files := by
    unfold exportWrites
    simp only [List.mem_flatMap, List.mem_filterMap, Option.map_eq_some_iff]
    exact ⟨f, hf, cls, hc, p, hp, rfl⟩
  unfold exported
  match e : (exportWrites files).reverse.find? fun w => w.1 = p with
  | none =>
    rw [List.find?_eq_none] at e
    exact absurd (e _ (List.mem_reverse.2 hmem)) (by simp)
  | some w =>
    have h1 := List.find?_some e
    have h2 := List.mem_of_find?_eq_some e
    rw [e, Option.map_some, huniq w (List.mem_reverse.1 h2) (by simpa using h1)]

/-- **C84, refuted for a family.** The words may be moved from the class to the file: the class `Example` + `ws` + `vs` of the file
`base` and the class `Example` + `vs` of the file `base_ws` are written to the same script. -/
theorem c84_files_collide (base : List Char) (w : Word) (ws vs : List Word) (hw : Split (w :: ws ++ vs)) (hws : ws ≠ [])
    (hv : Split (w :: vs)) (hvs : vs ≠ []) :
    exampleScript base (camel (w :: ws ++ vs)) = exampleScript (base ++ '_' :: snake ws) (camel (w :: vs)) := by
  have hsn : ∀ ws : List Word, ws ≠ [] → snake (ws ++ vs) = snake ws ++ '_' :: snake vs := by
    intro ws hws
    induction ws with
    | nil => exact absurd rfl hws
    | cons a ws ih =>
      match ws, vs, ih, hvs with
      | [], v :: vs, _, _ => rw [List.singleton_append, snake_head]; rfl
      | b :: ws, vs, ih, _ =>
        rw [List.cons_append, List.cons_append, snake_head, ← List.cons_append, ih (by simp), snake_head]
        simp
  have key : ∀ q, exampleScript base (camel (w :: ws ++ vs)) = some q ↔
      exampleScript (base ++ '_' :: snake ws) (camel (w :: vs)) = some q := by
    rintro ⟨dir, file⟩
    rw [List.cons_append] at hw ⊢
    rw [c84_scripts _ _ _ hw, c84_scripts _ _ _ hv, hsn ws hws]
    simp [hws, hvs]
  exact Option.ext fun q => key q

/-- **C84, refuted.** Of two classes of one file whose names differ in capital letters only, one has no script. -/
theorem c84_capitals_collide :
    let files := [("ex_sum".toList, ["ExampleAB".toList, "ExampleAb".toList])]
    (∀ cls ∈ ["ExampleAB".toList, "ExampleAb".toList],
      exampleScript "ex_sum".toList cls = some (.valid, "ex_sum_ab.py".toList)) ∧
    ∀ p, exported files p ≠ some ("ex_sum".toList, "ExampleAB".toList) := by
  refine ⟨by decide, fun p => ?_⟩
  have : exportWrites [("ex_sum".toList, ["ExampleAB".toList, "ExampleAb".toList])] =
      [((.valid, "ex_sum_ab.py".toList), ("ex_sum".toList, "ExampleAB".toList)),
       ((.valid, "ex_sum_ab.py".toList), ("ex_sum".toList, "ExampleAb".toList))] := by decide
  unfold exported
  rw [this]
  by_cases h : (ScriptDir.valid, "ex_sum_ab.py".toList) = p
  · simp [h]
  · simp [h]

/-- Names of classes and files of the repository: `ExampleMultipleMatrixAlong0` of ex_sum.py, `ErrorArrayInvalidIndices1` of
ex_expand.py, `ExampleScalarRotX` of ex_rotmat.py; `ExampleOTGroupWithinOTGroup` of ex_groups.py does not consist of words. -/
example : exampleScript "ex_sum".toList "ExampleMultipleMatrixAlong0".toList =
      some (.valid, "ex_sum_multiple_matrix_along0.py".toList) ∧
    exampleScript "ex_expand".toList "ErrorArrayInvalidIndices1".toList =
      some (.invalid, "ex_expand_array_invalid_indices1.py".toList) ∧
    exampleScript "ex_rotmat".toList "ExampleScalarRotX".toList = some (.valid, "ex_rotmat_scalar_rot_x.py".toList) ∧
    exampleScript "ex_groups".toList "ExampleOTGroupWithinOTGroup".toList =
      some (.valid, "ex_groups_ot_group_within_ot_group.py".toList) ∧
    exampleScript "ex_implicit".toList "ImplicitComponent".toList = none := by decide

/-- `RotX`: words that satisfy `Split`, one of them of one letter. -/
example : let ws : List Word := [⟨'R', "ot".toList, by decide, by decide⟩, ⟨'X', [], by decide, by decide⟩]
    Split (exampleWord :: ws) ∧ camel (exampleWord :: ws) = "ExampleRotX".toList ∧ snake ws = "rot_x".toList :=
  ⟨⟨by simp [exampleWord], by simp, trivial⟩, by decide, by decide⟩

/-- The hypothesis on the names of files holds for files of the repository with common beginnings. -/
example : let files := ["ex_einsum_new".toList, "ex_einsum_old".toList, "ex_indep_var".toList, "ex_indices".toList,
      "ex_matmat".toList, "ex_matvec".toList, "ex_max".toList]
    ∀ f ∈ files, ∀ f' ∈ files, (f ++ ['_']) <+: (f' ++ ['_']) → f = f' := by decide

end OM

import Verif.Model.EmbedCompare
import Mathlib.Tactic.Common

/-! # C97: shortened code in comparisons -/

namespace OM

/-- **C97**, the lines chosen: from the first line with `start` to the first line with `stop` from there on; one line if
it has both texts; to the end if no line has `stop`; from the first line if none has `start`. -/
theorem c97_chosen (start stop : CodeLine) :
    (∀ pre s rest, (∀ l ∈ pre, ¬ start <:+: l) → start <:+: s → fromStart start (pre ++ s :: rest) = s :: rest) ∧
    (∀ lines, (∀ l ∈ lines, ¬ start <:+: l) → fromStart start lines = lines) ∧
    (∀ pre e rest, (∀ l ∈ pre, ¬ stop <:+: l) → stop <:+: e → upToEnd stop (pre ++ e :: rest) = pre ++ [e]) ∧
    (∀ lines, (∀ l ∈ lines, ¬ stop <:+: l) → upToEnd stop lines = lines) := by
  have hfound : ∀ (t : CodeLine) (pre : List CodeLine) (s : CodeLine) (rest : List CodeLine), (∀ l ∈ pre, ¬ t <:+: l) →
      t <:+: s → (pre ++ s :: rest).findIdx? (fun l => decide (t <:+: l)) = some pre.length := by
    intro t pre s rest hp hs
    induction pre with
    | nil => simp [List.findIdx?_cons, hs]
    | cons a pre ih =>
      have ha : ¬ t <:+: a := hp a (by simp)
      rw [List.cons_append, List.findIdx?_cons, ih fun l hl => hp l (by simp [hl])]
      simp [ha]
  have hnone : ∀ (t : CodeLine) (lines : List CodeLine), (∀ l ∈ lines, ¬ t <:+: l) →
      lines.findIdx? (fun l => decide (t <:+: l)) = none := by
    intro t lines h
    rw [List.findIdx?_eq_none_iff]
    intro l hl
    simpa using h l hl
  refine ⟨fun pre s rest hp hs => ?_, fun lines h => ?_, fun pre e rest hp he => ?_, fun lines h => ?_⟩
  · simp [fromStart, hfound _ _ _ _ hp hs]
  · simp [fromStart, hnone _ _ h]
  · simp [upToEnd, hfound _ _ _ _ hp he, List.take_append, List.take_of_length_le]
  · simp [upToEnd, hnone _ _ h]

theorem startsWith_four (l : CodeLine) (h : List.replicate 4 ' ' <+: l) : ∃ m, l = ' ' :: ' ' :: ' ' :: ' ' :: m := by
  obtain ⟨m, rfl⟩ := h
  exact ⟨m, rfl⟩

/-- **C97**, the margin, exact: the same number of characters is taken off every line, whatever they are; it is a
multiple of four, the first line has as many blanks there, and it does not go on with four more. -/
theorem c97_margin (first : CodeLine) (rest : List CodeLine) :
    ∃ k, dedent first rest = (first :: rest).map (List.drop (4 * k)) ∧
      List.replicate (4 * k) ' ' <+: first ∧ ¬ List.replicate 4 ' ' <+: first.drop (4 * k) := by
  induction first, rest using dedent.induct with
  | case1 first rest ih =>
    obtain ⟨k, h1, h2, h3⟩ := ih
    refine ⟨k + 1, ?_, ?_, ?_⟩
    · rw [dedent, h1]
      have : 4 * (k + 1) = 4 * k + 4 := by omega
      simp [this, List.drop_drop, Nat.add_comm 4]
    · obtain ⟨m, hm⟩ := h2
      refine ⟨m, ?_⟩
      rw [Nat.mul_add, Nat.add_comm, List.replicate_add, List.append_assoc, hm]
      rfl
    · simpa [Nat.mul_add] using h3
  | case2 first rest hne =>
    refine ⟨0, ?_, by simp, ?_⟩
    · rw [dedent]
      · have : List.drop (α := Char) (4 * 0) = id := rfl
        rw [this, List.map_id]
      · exact hne
    · simp only [Nat.mul_zero, List.drop_zero]
      intro h
      obtain ⟨m, rfl⟩ := startsWith_four _ h
      exact hne m rfl

/-- **C97**, exact: only blanks are lost if and only if every line has nothing else in the margin of the first line. -/
theorem c97_exact (first : CodeLine) (rest : List CodeLine) :
    ∃ k, List.replicate (4 * k) ' ' <+: first ∧ ¬ List.replicate 4 ' ' <+: first.drop (4 * k) ∧
      ((∀ p ∈ (first :: rest).zip (dedent first rest), ∃ b, p.1 = List.replicate b ' ' ++ p.2) ↔
        ∀ l ∈ rest, ∀ c ∈ l.take (4 * k), c = ' ') := by
  obtain ⟨k, h1, h2, h3⟩ := c97_margin first rest
  refine ⟨k, h2, h3, ?_⟩
  have hz : (first :: rest).zip (dedent first rest) = (first :: rest).map fun l => (l, l.drop (4 * k)) := by
    rw [h1]
    generalize first :: rest = ls
    induction ls with
    | nil => rfl
    | cons a ls ih => simp [ih]
  have hl : ∀ l : CodeLine, (∃ b, l = List.replicate b ' ' ++ l.drop (4 * k)) ↔ ∀ c ∈ l.take (4 * k), c = ' ' := by
    intro l
    constructor
    · rintro ⟨b, hb⟩ c hc
      have : l.take (4 * k) = List.replicate b ' ' := by
        apply List.append_cancel_right (bs := l.drop (4 * k))
        rw [List.take_append_drop]
        exact hb
      rw [this] at hc
      exact List.eq_of_mem_replicate hc
    · intro h
      refine ⟨(l.take (4 * k)).length, ?_⟩
      rw [← List.eq_replicate_of_mem h, List.take_append_drop]
  rw [hz]
  rw [List.forall_mem_map, List.forall_mem_cons]
  simp only [hl]
  refine and_iff_right ?_
  obtain ⟨m, rfl⟩ := h2
  intro c hc
  simp only [List.take_left' (List.length_replicate)] at hc
  exact List.eq_of_mem_replicate hc

/-- **C97** where it holds: if every line is indented at least like the first one, all of them lose that margin. -/
theorem c97_indented_partial {n : Nat} {first : CodeLine} {rest : List CodeLine} (hf : ¬ ' ' :: [] <+: first) :
    dedent (List.replicate (4 * n) ' ' ++ first) (rest.map (List.replicate (4 * n) ' ' ++ ·)) = first :: rest := by
  induction n with
  | zero =>
    rw [dedent]
    · simp
    · intro m hm
      simp only [Nat.mul_zero, List.replicate_zero, List.nil_append] at hm
      exact hf ⟨' ' :: ' ' :: ' ' :: m, hm.symm⟩
  | succ n ih =>
    have : List.replicate (4 * (n + 1)) ' ' = ' ' :: ' ' :: ' ' :: ' ' :: List.replicate (4 * n) ' ' := by
      rw [Nat.mul_add, Nat.add_comm, List.replicate_add]
      rfl
    rw [this]
    simp only [List.cons_append, dedent, List.map_map]
    exact ih

/-- **C97** is violated by every line after the first that begins in its margin: it loses code. -/
theorem c97_violated {first : CodeLine} {rest : List CodeLine} {l : CodeLine} (hl : l ∈ rest) {c : Char}
    (hc : c ∈ l.take 4) (hb : c ≠ ' ') (hf : List.replicate 4 ' ' <+: first) :
    ∃ p ∈ (first :: rest).zip (dedent first rest), ¬ ∃ b, p.1 = List.replicate b ' ' ++ p.2 := by
  obtain ⟨k, h2, h3, h4⟩ := c97_exact first rest
  by_contra h
  push Not at h
  have h' := h4.1 fun p hp => by simpa using h p hp
  cases k with
  | zero => exact h3 (by simpa using hf)
  | succ k =>
    refine hb (h' l hl c ?_)
    exact (List.take_subset_take_left l (by omega)) hc

theorem removeAll_skip (pat : CodeLine) (k : Nat) (l : CodeLine) : removeAll pat k l = removeAll pat 0 (l.drop k) := by
  induction l generalizing k with
  | nil => cases k <;> simp [removeAll]
  | cons c l ih =>
    cases k with
    | zero => rfl
    | succ k => rw [removeAll, ih k, List.drop_succ_cons]

/-- **C97**: what `replace(pat, '')` does, for every text: nothing without an occurrence; otherwise the first occurrence
is left out and the rest after it is treated in the same way. -/
theorem c97_replace {pat : CodeLine} (hp : pat ≠ []) :
    (∀ l, ¬ pat <:+: l → removeAll pat 0 l = l) ∧
    ∀ a b, (∀ t, t <:+ a → t ≠ [] → ¬ pat <+: t ++ (pat ++ b)) →
      removeAll pat 0 (a ++ (pat ++ b)) = a ++ removeAll pat 0 b := by
  constructor
  · intro l h
    induction l with
    | nil => rfl
    | cons c l ih =>
      rw [removeAll, if_neg fun h' => h h'.isInfix, ih fun h' => h (h'.trans (List.suffix_cons c l).isInfix)]
  · intro a b h
    induction a with
    | nil =>
      cases pat with
      | nil => exact absurd rfl hp
      | cons c pat =>
        simp only [List.nil_append, List.cons_append]
        rw [removeAll, if_pos ⟨b, rfl⟩, removeAll_skip]
        simp
    | cons c a ih =>
      have h0 := h (c :: a) (List.suffix_refl _) (by simp)
      rw [List.cons_append] at h0 ⊢
      rw [removeAll, if_neg h0, ih fun t ht => h t (ht.trans (List.suffix_cons c a)), List.cons_append]

theorem removeTwice {short tail a b : CodeLine} (hp : short ≠ [])
    (ha : ∀ t, t <:+ a → t ≠ [] → ¬ short <+: t ++ (short ++ (tail ++ b))) (hab : ¬ short <:+: a ++ b) :
    removeAll short 0 (removeAll (short ++ tail) 0 (a ++ ((short ++ tail) ++ b))) = a ++ b := by
  have hb : ¬ short ++ tail <:+: b := fun h =>
    hab ((List.prefix_append short tail).isInfix.trans (h.trans (List.suffix_append a b).isInfix))
  rw [(c97_replace (by simp [hp])).2 a b, (c97_replace (by simp [hp])).1 b hb, (c97_replace hp).1 _ hab]
  intro t ht hne h
  refine ha t ht hne ((List.prefix_append short tail).trans ?_)
  simpa using h

/-- **C97**: the call of `setup` loses the argument `check=False` together with the comma and blank after it if they are
there, and nothing else. -/
theorem c97_setup {a b : CodeLine} :
    ("prob.setup(check=False".toList <:+: a ++ ("check=False, ".toList ++ b) →
      (∀ t, t <:+ a → t ≠ [] → ¬ "check=False".toList <+: t ++ ("check=False".toList ++ (", ".toList ++ b))) →
      ¬ "check=False".toList <:+: a ++ b →
      suppressCheck (a ++ ("check=False, ".toList ++ b)) = a ++ b) ∧
    ("prob.setup(check=False".toList <:+: a ++ ("check=False".toList ++ b) →
      ¬ "check=False, ".toList <:+: a ++ ("check=False".toList ++ b) →
      (∀ t, t <:+ a → t ≠ [] → ¬ "check=False".toList <+: t ++ ("check=False".toList ++ b)) →
      ¬ "check=False".toList <:+: b →
      suppressCheck (a ++ ("check=False".toList ++ b)) = a ++ b) := by
  have hs : "check=False, ".toList = "check=False".toList ++ ", ".toList := by decide +kernel
  have hne : "check=False".toList ≠ [] := by decide +kernel
  have hne' : "check=False, ".toList ≠ [] := by decide +kernel
  have hsup : ∀ l, "prob.setup(check=False".toList <:+: l → suppressCheck l =
      removeAll "check=False".toList 0 (removeAll "check=False, ".toList 0 l) := by
    intro l h
    unfold suppressCheck
    rw [if_pos h]
  refine ⟨fun h1 h2 h3 => ?_, fun h1 h2 h3 h4 => ?_⟩
  · rw [hsup _ h1, hs]
    exact removeTwice hne h2 h3
  · rw [hsup _ h1, (c97_replace hne').1 _ h2, (c97_replace hne).2 a b h3, (c97_replace hne).1 b h4]

theorem suppressCheck_without {l : CodeLine} (h : ¬ "prob.setup(check=False".toList <:+: l) : suppressCheck l = l := by
  unfold suppressCheck
  rw [if_neg h]

/-- **C97**, the whole, exact: the lines between two marks are shown without the margin of the first of them, whatever
the others have there, if none of them switches the check off. -/
theorem c97_shown {start stop : CodeLine} {pre mid post : List CodeLine} {s e : CodeLine}
    (hpre : ∀ l ∈ pre, ¬ start <:+: l) (hs : start <:+: s) (hmid : ∀ l ∈ s :: mid, ¬ stop <:+: l) (he : stop <:+: e)
    (hc : ∀ l ∈ s :: mid ++ [e], ¬ "prob.setup(check=False".toList <:+: l) :
    ∃ k, embedded start stop (pre ++ (s :: mid ++ [e]) ++ post) = (s :: mid ++ [e]).map (List.drop (4 * k)) ∧
      List.replicate (4 * k) ' ' <+: s ∧ ¬ List.replicate 4 ' ' <+: s.drop (4 * k) := by
  obtain ⟨h1, -, h3, -⟩ := c97_chosen start stop
  have hl : pre ++ (s :: mid ++ [e]) ++ post = pre ++ s :: (mid ++ e :: post) := by simp
  have hr : s :: (mid ++ e :: post) = (s :: mid) ++ e :: post := by simp
  have hm : (s :: mid ++ [e]).map suppressCheck = s :: (mid ++ [e]) := by
    rw [List.map_congr_left (g := id)]
    · simp
    · intro l hl
      exact suppressCheck_without (hc l hl)
  unfold embedded
  rw [hl, h1 pre _ _ hpre hs, hr, h3 _ _ post hmid he, hm]
  exact c97_margin s (mid ++ [e])

/-- **C97**, the whole: the lines between two marks, all indented by at least `4 * n` blanks, are shown without this
margin and otherwise as they are, if none of them switches the check off. -/
theorem c97_shown_partial {start stop : CodeLine} {n : Nat} {pre mid post : List CodeLine} {s e : CodeLine}
    (hpre : ∀ l ∈ pre, ¬ start <:+: l) (hs : start <:+: List.replicate (4 * n) ' ' ++ s)
    (hmid : ∀ l ∈ s :: mid, ¬ stop <:+: List.replicate (4 * n) ' ' ++ l) (he : stop <:+: List.replicate (4 * n) ' ' ++ e)
    (hc : ∀ l ∈ s :: mid ++ [e], ¬ "prob.setup(check=False".toList <:+: List.replicate (4 * n) ' ' ++ l)
    (hf : ¬ ' ' :: [] <+: s) :
    embedded start stop (pre ++ (s :: mid ++ [e]).map (List.replicate (4 * n) ' ' ++ ·) ++ post) = s :: mid ++ [e] := by
  obtain ⟨h1, -, h3, -⟩ := c97_chosen start stop
  have hl : pre ++ (s :: mid ++ [e]).map (List.replicate (4 * n) ' ' ++ ·) ++ post =
      pre ++ (List.replicate (4 * n) ' ' ++ s) :: ((mid ++ [e]).map (List.replicate (4 * n) ' ' ++ ·) ++ post) := by simp
  have hr : (List.replicate (4 * n) ' ' ++ s) :: ((mid ++ [e]).map (List.replicate (4 * n) ' ' ++ ·) ++ post) =
      (s :: mid).map (List.replicate (4 * n) ' ' ++ ·) ++ (List.replicate (4 * n) ' ' ++ e) :: post := by simp
  have hm : ((s :: mid).map (List.replicate (4 * n) ' ' ++ ·) ++ [List.replicate (4 * n) ' ' ++ e]).map suppressCheck =
      (List.replicate (4 * n) ' ' ++ s) :: (mid ++ [e]).map (List.replicate (4 * n) ' ' ++ ·) := by
    have : (s :: mid).map (List.replicate (4 * n) ' ' ++ ·) ++ [List.replicate (4 * n) ' ' ++ e] =
        (s :: mid ++ [e]).map (List.replicate (4 * n) ' ' ++ ·) := by simp
    rw [this, List.map_map, List.map_congr_left (g := (List.replicate (4 * n) ' ' ++ ·))]
    · simp
    · intro l hl
      exact suppressCheck_without (hc l hl)
  unfold embedded
  rw [hl, h1 pre _ _ hpre hs, hr, h3 _ _ post (by simpa using hmid) he, hm]
  exact c97_indented_partial hf

/-- A method, from its second line to its third. -/
example : embedded "p =".toList "run".toList (["def f():".toList] ++
      ("p = 1".toList :: [] ++ ["run(p)".toList]).map (List.replicate (4 * 1) ' ' ++ ·) ++ ["    end()".toList]) =
    "p = 1".toList :: [] ++ ["run(p)".toList] :=
  c97_shown_partial (by decide +kernel) (by decide +kernel) (by decide +kernel) (by decide +kernel)
    (by decide +kernel) (by decide +kernel)

/-- Two occurrences. -/
example : removeAll "ab".toList 0 "xaby ab".toList = "xy ".toList := by decide +kernel

/-- A method whose body is chosen without its first line, and a comment to the left of it. -/
example : embedded "p =".toList "run".toList ["def f():".toList, "    p = 1".toList, "# now".toList, "    run(p)".toList,
      "    end()".toList] = ["p = 1".toList, "w".toList, "run(p)".toList] := by
  decide +kernel

/-- The call of `setup` loses its argument. -/
example : suppressCheck "prob.setup(check=False, mode='fwd')".toList = "prob.setup(mode='fwd')".toList := by
  decide +kernel

/-- Without other arguments. -/
example : suppressCheck ("prob.setup(".toList ++ ("check=False".toList ++ ")".toList)) = "prob.setup(".toList ++ ")".toList := by
  refine c97_setup.2 (by decide +kernel) (by decide +kernel) ?_ (by decide +kernel)
  intro t ht
  rw [← List.mem_tails] at ht
  revert t
  decide +kernel

end OM

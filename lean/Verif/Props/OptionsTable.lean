import Verif.Model.OptionsTable

/-! # C87: the printed table of options shows every option -/

namespace OM

/-- The place where column `j` starts, if the columns are `sizes` wide and followed by one blank each. -/
def colStart (sizes : List Nat) (j : Nat) : Nat := ((sizes.take j).map (· + 1)).sum

/-- Line `line` shows the text `c` in column `j`: the column contains `c` and then blanks only, `c` fits, and
another blank follows. -/
def ShowsIn (sizes : List Nat) (line : Text) (j : Nat) (c : Text) : Prop :=
  ∃ w, sizes[j]? = some w ∧ c.length ≤ w ∧
    (line.drop (colStart sizes j)).take (w + 1) = c ++ List.replicate (w + 1 - c.length) ' '

/-! ## The widths -/

theorem foldl_sizes (rows : List (List Text)) : ∀ sizes : List Nat, (∀ r ∈ rows, r.length = sizes.length) →
    let out := rows.foldl
      (fun sizes row => (sizes.zip row).map fun p => if p.1 < p.2.length then p.2.length else p.1) sizes
    out.length = sizes.length ∧
    (∀ (j w : Nat), sizes[j]? = some w → ∃ w', out[j]? = some w' ∧ w ≤ w') ∧
    ∀ r ∈ rows, ∀ (j : Nat) (c : Text), r[j]? = some c → ∃ w', out[j]? = some w' ∧ c.length ≤ w' := by
  induction rows with
  | nil => intro sizes _; exact ⟨rfl, fun j w h => ⟨w, h, le_rfl⟩, fun r hr => absurd hr List.not_mem_nil⟩
  | cons r rows ih =>
    intro sizes h
    have hr := h r List.mem_cons_self
    set sizes' := (sizes.zip r).map fun p => if p.1 < p.2.length then p.2.length else p.1 with hs
    have hl : sizes'.length = sizes.length := by simp [hs, hr]
    obtain ⟨h1, h2, h3⟩ := ih sizes' (fun x hx => by rw [hl]; exact h x (List.mem_cons_of_mem _ hx))
    have hget : ∀ (j w : Nat) (c : Text), sizes[j]? = some w → r[j]? = some c →
        sizes'[j]? = some (if w < c.length then c.length else w) := by
      intro j w c hw hc
      rw [hs, List.getElem?_map, List.getElem?_zip_eq_some (z := (w, c)) |>.2 ⟨hw, hc⟩]; rfl
    refine ⟨h1.trans hl, ?_, ?_⟩
    · intro j w hw
      have hj : j < r.length := by rw [hr]; exact (List.getElem?_eq_some_iff.1 hw).1
      obtain ⟨w', hw', hle⟩ := h2 j _ (hget j w _ hw (List.getElem?_eq_getElem hj))
      refine ⟨w', hw', le_trans ?_ hle⟩
      split <;> omega
    · intro x hx j c hc
      rcases List.mem_cons.1 hx with rfl | hx
      · have hj : j < sizes.length := by rw [← hr]; exact (List.getElem?_eq_some_iff.1 hc).1
        obtain ⟨w', hw', hle⟩ := h2 j _ (hget j _ c (List.getElem?_eq_getElem hj) hc)
        refine ⟨w', hw', le_trans ?_ hle⟩
        split <;> omega
      · exact h3 x hx j c hc

theorem colSizes_spec {heads : List Text} {rows : List (List Text)} (h : ∀ r ∈ rows, r.length = heads.length) :
    (colSizes heads rows).length = heads.length ∧
    ∀ r ∈ heads :: rows, ∀ (j : Nat) (c : Text), r[j]? = some c → ∃ w, (colSizes heads rows)[j]? = some w ∧ c.length ≤ w := by
  obtain ⟨h1, h2, h3⟩ := foldl_sizes rows (heads.map List.length) (by simpa using h)
  refine ⟨by simpa [colSizes] using h1, ?_⟩
  intro r hr j c hc
  rcases List.mem_cons.1 hr with rfl | hr
  · exact h2 j c.length (by simp [hc])
  · exact h3 r hr j c hc

/-! ## The lines -/

theorem ruleLine_length (sizes : List Nat) : (ruleLine sizes).length = colStart sizes sizes.length := by
  induction sizes with
  | nil => rfl
  | cons n sizes ih =>
    simp only [ruleLine, List.flatMap_cons, List.length_append] at ih ⊢
    rw [ih]; simp [colStart]

theorem cellsLine_spec (sizes : List Nat) : ∀ row : List Text, row.length = sizes.length →
    (∀ (j : Nat) (c : Text), row[j]? = some c → ∃ w, sizes[j]? = some w ∧ c.length ≤ w) →
    (cellsLine sizes row).length = colStart sizes sizes.length ∧
    ∀ (j : Nat) (c : Text), row[j]? = some c → ShowsIn sizes (cellsLine sizes row) j c := by
  induction sizes with
  | nil =>
    intro row h _
    have : row = [] := List.length_eq_zero_iff.1 (by simpa using h)
    subst this; simp [cellsLine, colStart]
  | cons n sizes ih =>
    intro row h hf
    cases row with
    | nil => simp at h
    | cons c0 row =>
      have hc0 : c0.length ≤ n := by
        obtain ⟨w, hw, hle⟩ := hf 0 c0 rfl
        simp only [List.getElem?_cons_zero, Option.some.injEq] at hw; omega
      have hcell : (c0 ++ ' ' :: List.replicate (n - c0.length) ' ')
          = c0 ++ List.replicate (n + 1 - c0.length) ' ' := by
        rw [show n + 1 - c0.length = (n - c0.length) + 1 by omega, List.replicate_succ]
      have hlen : (c0 ++ List.replicate (n + 1 - c0.length) ' ').length = n + 1 := by simp; omega
      have hline : cellsLine (n :: sizes) (c0 :: row)
          = (c0 ++ List.replicate (n + 1 - c0.length) ' ') ++ cellsLine sizes row := by
        rw [← hcell]; rfl
      obtain ⟨h1, h2⟩ := ih row (by simpa using h) (fun j c hc => by simpa using hf (j + 1) c (by simpa using hc))
      refine ⟨?_, ?_⟩
      · rw [hline, List.length_append, hlen, h1]; simp [colStart]
      · intro j c hc
        cases j with
        | zero =>
          simp only [List.getElem?_cons_zero, Option.some.injEq] at hc
          subst hc
          refine ⟨n, rfl, hc0, ?_⟩
          rw [hline]
          simp only [colStart, List.take_zero, List.map_nil, List.sum_nil, List.drop_zero]
          rw [List.take_append_of_le_length (by omega), List.take_of_length_le (by omega)]
        | succ j =>
          obtain ⟨w, hw, hle, hs⟩ := h2 j c (by simpa using hc)
          refine ⟨w, by simpa using hw, hle, ?_⟩
          rw [← hs, hline]
          congr 1
          have : colStart (n :: sizes) (j + 1) = (n + 1) + colStart sizes j := by simp [colStart]
          rw [this, ← List.drop_drop, List.drop_left' hlen]

/-! ## The cells -/

theorem optCells_ok {e : OptEntry} (h : e.types ≠ .set) :
    ∃ t, optCells e = .ok [e.name.toList, showDefault e.value, e.values, t, e.desc] := by
  unfold optCells
  cases ht : e.types with
  | na => exact ⟨_, rfl⟩
  | names l => exact ⟨_, rfl⟩
  | set => exact absurd ht h

theorem optRows_ok (f : OptEntry → Except PyErr (List Text)) : ∀ es : List OptEntry,
    (∀ e ∈ es, ∃ r, f e = .ok r) →
    ∃ rows, es.mapM f = .ok rows ∧ List.Forall₂ (fun e r => f e = .ok r) es rows := by
  intro es
  induction es with
  | nil => intro _; exact ⟨[], rfl, .nil⟩
  | cons e es ih =>
    intro h
    obtain ⟨r, hr⟩ := h e List.mem_cons_self
    obtain ⟨rows, h1, h2⟩ := ih (fun x hx => h x (List.mem_cons_of_mem _ hx))
    refine ⟨r :: rows, ?_, .cons hr h2⟩
    rw [List.mapM_cons, hr, h1]; rfl

theorem optRows_err (f : OptEntry → Except PyErr (List Text)) (hf : ∀ e x, f e = .error x → x = .attributeError) :
    ∀ es : List OptEntry, (∃ e ∈ es, f e = .error .attributeError) → es.mapM f = .error .attributeError := by
  intro es
  induction es with
  | nil => rintro ⟨_, h, _⟩; simp at h
  | cons e es ih =>
    rintro ⟨x, hx, he⟩
    rw [List.mapM_cons]
    cases hfe : f e with
    | error y => rw [hf e y hfe]; rfl
    | ok r =>
      rcases List.mem_cons.1 hx with rfl | hx
      · rw [he] at hfe; cases hfe
      · rw [ih ⟨x, hx, he⟩]; rfl

theorem sortEntries_perm (es : List OptEntry) : (sortEntries es).Perm es := List.perm_insertionSort _ _

/-- The table of options of which none has a set of types: the rows, and that they have five cells each. -/
theorem optRst_eq {es : List OptEntry} (h : ∀ e ∈ es, e.types ≠ .set) :
    ∃ rows, optRst es = .ok (tableLines colHeads rows) ∧
      List.Forall₂ (fun e r => optCells e = .ok r) (sortEntries es) rows ∧ ∀ r ∈ rows, r.length = 5 := by
  have hs : ∀ e ∈ sortEntries es, e.types ≠ .set := fun e he => h e ((sortEntries_perm es).mem_iff.1 he)
  obtain ⟨rows, h1, h2⟩ := optRows_ok optCells (sortEntries es) (fun e he => by
    obtain ⟨t, ht⟩ := optCells_ok (hs e he); exact ⟨_, ht⟩)
  refine ⟨rows, by rw [optRst, h1], h2, ?_⟩
  intro r hr
  obtain ⟨i, hi, rfl⟩ := List.getElem_of_mem hr
  have hi' : i < (sortEntries es).length := by rw [h2.length_eq]; exact hi
  have := List.forall₂_iff_get.1 h2
  have hx := this.2 i hi' hi
  simp only [List.get_eq_getElem] at hx
  obtain ⟨t, ht⟩ := optCells_ok (hs _ (List.getElem_mem hi'))
  rw [ht] at hx
  injection hx with hx
  rw [← hx]; rfl

/-- **C87 (table).** Unless an option was declared with a set of types, `__rst__` succeeds; all its lines have
the same length; there are four more lines than options; and line `3 + k` shows the `k`-th option in the order of
the names: name, value or `**Required**`, acceptable values and description, each complete in its column. -/
theorem c87_rst (es : List OptEntry) (h : ∀ e ∈ es, e.types ≠ .set) :
    ∃ lines sizes, optRst es = .ok lines ∧ lines.length = es.length + 4 ∧ sizes.length = 5 ∧
      (∀ l ∈ lines, l.length = colStart sizes 5) ∧
      (∀ (j : Nat) (c : Text), colHeads[j]? = some c → ShowsIn sizes (lines.getD 1 []) j c) ∧
      ∀ (k : Nat) (e : OptEntry), (sortEntries es)[k]? = some e → ∃ line t, lines[3 + k]? = some line ∧
        ShowsIn sizes line 0 e.name.toList ∧ ShowsIn sizes line 1 (showDefault e.value) ∧
        ShowsIn sizes line 2 e.values ∧ ShowsIn sizes line 3 t ∧ ShowsIn sizes line 4 e.desc ∧
        (e.types = .na → t = "N/A".toList) ∧ ∀ l, e.types = .names l → t = showNames l := by
  obtain ⟨rows, h1, h2, h3⟩ := optRst_eq h
  have hl := (sortEntries_perm es).length_eq
  have hr := h2.length_eq
  obtain ⟨s1, s2⟩ := colSizes_spec (heads := colHeads) (rows := rows) h3
  have s1 : (colSizes colHeads rows).length = 5 := s1
  have hcell : ∀ r ∈ colHeads :: rows, (cellsLine (colSizes colHeads rows) r).length = colStart (colSizes colHeads rows) 5
      ∧ ∀ (j : Nat) (c : Text), r[j]? = some c → ShowsIn (colSizes colHeads rows) (cellsLine (colSizes colHeads rows) r) j c := by
    intro r hr
    have hr5 : r.length = 5 := by
      rcases List.mem_cons.1 hr with rfl | hr
      · rfl
      · exact h3 r hr
    have := cellsLine_spec (colSizes colHeads rows) r (by rw [hr5, s1]) (fun j c hc => s2 r hr j c hc)
    rw [s1] at this
    exact this
  refine ⟨_, colSizes colHeads rows, h1, ?_, s1, ?_, ?_, ?_⟩
  · simp [tableLines]; omega
  · intro l hlm
    have hrule : (ruleLine (colSizes colHeads rows)).length = colStart (colSizes colHeads rows) 5 := by
      rw [ruleLine_length, s1]
    simp only [tableLines, List.mem_append, List.mem_cons, List.not_mem_nil, or_false, List.mem_map] at hlm
    rcases hlm with (((rfl | rfl | rfl) | ⟨r, hr, rfl⟩) | rfl)
    · exact hrule
    · exact (hcell _ List.mem_cons_self).1
    · exact hrule
    · exact (hcell r (List.mem_cons_of_mem _ hr)).1
    · exact hrule
  · intro j c hc
    exact (hcell _ List.mem_cons_self).2 j c hc
  · intro k e hk
    obtain ⟨hk1, hk2⟩ := List.getElem?_eq_some_iff.1 hk
    have hk3 : k < rows.length := by omega
    have hx := (List.forall₂_iff_get.1 h2).2 k hk1 hk3
    simp only [List.get_eq_getElem] at hx
    rw [hk2] at hx
    have hne : e.types ≠ .set := h e ((sortEntries_perm es).mem_iff.1 (List.mem_of_getElem? hk))
    have hm : rows[k] ∈ colHeads :: rows := List.mem_cons_of_mem _ (List.getElem_mem hk3)
    have hc := (hcell _ hm).2
    have hline : (tableLines colHeads rows)[3 + k]? = some (cellsLine (colSizes colHeads rows) rows[k]) := by
      simp only [tableLines]
      rw [List.getElem?_append_left (by simp; omega), List.getElem?_append_right (by simp)]
      simp [hk3]
    refine ⟨_, rows[k].getD 3 [], hline, ?_⟩
    unfold optCells at hx
    cases ht : e.types with
    | na =>
      rw [ht] at hx; injection hx with hx
      rw [← hx] at hc ⊢
      exact ⟨hc 0 _ rfl, hc 1 _ rfl, hc 2 _ rfl, hc 3 _ rfl, hc 4 _ rfl, fun _ => rfl, fun l hl => by cases hl⟩
    | names l =>
      rw [ht] at hx; injection hx with hx
      rw [← hx] at hc ⊢
      exact ⟨hc 0 _ rfl, hc 1 _ rfl, hc 2 _ rfl, hc 3 _ rfl, hc 4 _ rfl, fun hl => (by cases hl),
        fun l' hl => (by cases hl; rfl)⟩
    | set => exact absurd ht hne

/-- **C87 (order).** The rows are the declared options, each once, in the order of their names. -/
theorem c87_sorted (es : List OptEntry) :
    (sortEntries es).Perm es ∧ (sortEntries es).Pairwise fun a b => a.name ≤ b.name :=
  ⟨sortEntries_perm es, by
    have : Std.Total fun a b : OptEntry => a.name ≤ b.name := ⟨fun a b => le_total a.name b.name⟩
    have : IsTrans OptEntry fun a b : OptEntry => a.name ≤ b.name := ⟨fun a b c => le_trans (a := a.name)⟩
    exact List.pairwise_insertionSort _ _⟩

/-- **C87 (violation).** `declare` accepts a set of types, and then the table cannot be printed. -/
theorem c87_set_raises (ws : Char → Bool) (width : Nat) (es : List OptEntry) (h : ∃ e ∈ es, e.types = .set) :
    optRst es = .error .attributeError ∧ optStr ws width es = .error .attributeError := by
  have : optRst es = .error .attributeError := by
    obtain ⟨e, he, ht⟩ := h
    rw [optRst, optRows_err optCells _ _ ⟨e, (sortEntries_perm es).mem_iff.2 he, by rw [optCells, ht]⟩]
    intro e x hx
    unfold optCells at hx
    split at hx <;> cases hx
    rfl
  exact ⟨this, by rw [optStr, this]⟩

/-! ## How values are shown -/

theorem findText_none {pat : Text} (hp : pat ≠ []) : ∀ s, ¬ pat <:+: s → findText pat s = none
  | [], _ => by rw [findText, if_neg hp]
  | c :: s, h => by
    rw [findText, if_neg (fun h' => h h'.isInfix),
      findText_none hp s (fun h' => h (h'.trans (List.suffix_cons c s).isInfix))]
    rfl

/-- The pattern is found behind a text without its first character. -/
theorem findText_behind {x : Char} {pat : Text} (b : Text) : ∀ a : Text, x ∉ a →
    findText (x :: pat) (a ++ (x :: pat) ++ b) = some a.length
  | [], _ => by
    rw [List.nil_append, List.cons_append, findText, if_pos ⟨b, rfl⟩]; rfl
  | c :: a, h => by
    have hc : ¬ (x :: pat) <+: c :: (a ++ (x :: pat) ++ b) := by
      intro hp
      rw [List.cons_prefix_cons] at hp
      exact h (by rw [hp.1]; exact List.mem_cons_self)
    show findText (x :: pat) (c :: (a ++ (x :: pat) ++ b)) = _
    rw [findText, if_neg hc, findText_behind b a (fun h' => h (List.mem_cons_of_mem _ h'))]
    rfl

theorem splitOnP_last {p : Char → Bool} : ∀ (m cls : Text) (x : Char), p x = true → (∀ c ∈ cls, p c = false) →
    ((m ++ x :: cls).splitOnP p).getLastD [] = cls
  | [], cls, x, hx, hc => by
    rw [List.nil_append, List.splitOnP_cons_eq_if_modifyHead, if_pos hx, List.splitOnP_eq_singleton hc]; rfl
  | c :: m, cls, x, hx, hc => by
    have ih := splitOnP_last m cls x hx hc
    rw [List.cons_append, List.splitOnP_cons_eq_if_modifyHead]
    have hne : (m ++ x :: cls).splitOnP p ≠ [] := List.splitOnP_ne_nil _ _
    split
    · cases hs : (m ++ x :: cls).splitOnP p with
      | nil => exact absurd hs hne
      | cons y ys => rw [hs] at ih; simpa using ih
    · -- the head changes, but the text is split in at least two parts
      cases hs : (m ++ x :: cls).splitOnP p with
      | nil => exact absurd hs hne
      | cons y ys =>
        cases ys with
        | nil =>
          exfalso
          have hspec := List.splitOnP_spec (p := p) (m ++ x :: cls)
          rw [hs] at hspec
          have hlen := congrArg List.length hspec
          have : ∀ l : Text, x ∈ l → p x = true → 2 ≤ (l.splitOnP p).length := by
            intro l
            induction l with
            | nil => intro h; simp at h
            | cons d l ihl =>
              intro hm hp
              rw [List.splitOnP_cons_eq_if_modifyHead]
              split
              · have := List.length_pos_iff.2 (List.splitOnP_ne_nil p l)
                simp; omega
              · rename_i hd
                rcases List.mem_cons.1 hm with rfl | hm
                · exact absurd hp hd
                · simpa using ihl hm hp
          have h2 := this (m ++ x :: cls) (by simp) hx
          rw [hs] at h2
          simp at h2
        | cons z zs => rw [hs] at ih; simpa using ih

theorem showDefault_plain (s : Text) (hs : ¬ objectAt <:+: s) : showDefault (some s) = s := by
  have := findText_none (pat := objectAt) (List.cons_ne_nil _ _) s hs
  unfold showDefault
  simp only [this]

theorem showDefault_object (m cls b : Text) (hm : ' ' ∉ m) (hc : ' ' ∉ cls) (hd : '.' ∉ cls) :
    showDefault (some ('<' :: m ++ '.' :: cls ++ objectAt ++ b)) = cls := by
  have hne : ' ' ∉ '<' :: m ++ '.' :: cls := by
    simp only [List.cons_append, List.mem_cons, List.mem_append, not_or]
    exact ⟨by decide, hm, by decide, hc⟩
  have hf : findText objectAt ('<' :: m ++ '.' :: cls ++ objectAt ++ b) = _ :=
    findText_behind (x := ' ') (pat := objectAt.tail) b _ hne
  have ht : (('<' :: m ++ '.' :: cls) ++ objectAt ++ b).take ('<' :: m ++ '.' :: cls).length
      = '<' :: m ++ '.' :: cls := by
    rw [List.append_assoc]; exact List.take_left
  have hh : ('<' :: m ++ '.' :: cls ++ objectAt ++ b).head? = some '<' := rfl
  unfold showDefault
  simp only [hf, hh, if_true, ht]
  exact splitOnP_last ('<' :: m) cls '.' (by simp) (fun c h => by
    simp only [beq_eq_false_iff_ne]; rintro rfl; exact hd h)

/-- **C87 (values).** A required option is shown as such; a value is shown by its text, unless the text contains
` object at `; an object of class `cls` is shown as `cls`. -/
theorem c87_value :
    showDefault none = "**Required**".toList ∧
    (∀ s, ¬ objectAt <:+: s → showDefault (some s) = s) ∧
    ∀ m cls b : Text, ' ' ∉ m → ' ' ∉ cls → '.' ∉ cls →
      showDefault (some ('<' :: m ++ '.' :: cls ++ objectAt ++ b)) = cls :=
  ⟨by unfold showDefault; exact Eq.refl _, showDefault_plain, showDefault_object⟩

/-- **C87 (types).** The acceptable types are shown as the list of their names in quotation marks, in order. -/
theorem c87_types (l : List Text) :
    (l = [] → showNames l = "[]".toList) ∧
    (l ≠ [] → showNames l = "['".toList ++ List.intercalate "', '".toList l ++ "']".toList) := by
  refine ⟨fun h => by rw [h, showNames], fun h => ?_⟩
  cases l with
  | nil => exact absurd rfl h
  | cons n ns =>
    rw [showNames, List.append_assoc "['".toList]
    congr 2
    generalize "', '".toList = sep
    have : ∀ (ns : List Text) (n : Text), n ++ ns.flatMap (fun m => sep ++ m) = List.intercalate sep (n :: ns) := by
      intro ns
      induction ns with
      | nil => intro n; simp [List.intercalate]
      | cons m ns ih =>
        intro n
        rw [List.intercalate_cons_cons, ← ih m]
        simp
    exact this ns n

/-! ## Wrapping -/

theorem splitBlanks_ruleLine : ∀ sizes : List Nat, (∀ n ∈ sizes, 0 < n) →
    splitBlanks (ruleLine sizes) = sizes.map (List.replicate · '=')
  | [], _ => rfl
  | n :: sizes, h => by
    have ih := splitBlanks_ruleLine sizes (fun m hm => h m (List.mem_cons_of_mem _ hm))
    have hn := h n List.mem_cons_self
    have key : ∀ (k : Nat) (t : Text), (List.replicate k '=' ++ ' ' :: t).splitOnP (· == ' ')
        = List.replicate k '=' :: t.splitOnP (· == ' ') := by
      intro k t
      induction k with
      | zero => rw [List.replicate_zero, List.nil_append, List.splitOnP_cons_eq_if_modifyHead]; rfl
      | succ k ihk =>
        rw [List.replicate_succ, List.cons_append, List.splitOnP_cons_eq_if_modifyHead, ihk]; rfl
    have hl : ruleLine (n :: sizes) = List.replicate n '=' ++ ' ' :: ruleLine sizes := by
      simp [ruleLine]
    rw [splitBlanks, hl, key, List.filter_cons, if_pos (by simp; omega), List.map_cons, ← ih]
    rfl

/-- The column found by `__str__` is the place where descriptions start. -/
theorem descCol_eq (sizes : List Nat) (h : ∀ n ∈ sizes, 0 < n) (hl : sizes.length = 5) :
    let cols := (splitBlanks (ruleLine sizes)).map List.length
    cols.dropLast.sum + cols.length - 1 = colStart sizes 4 := by
  intro cols
  have hc : cols = sizes := by
    simp only [cols, splitBlanks_ruleLine sizes h, List.map_map]
    conv_rhs => rw [← List.map_id sizes]
    exact List.map_congr_left fun n _ => by simp
  rw [hc]
  match sizes, hl with
  | [a, b, c, d, e], _ => simp [colStart]; omega

theorem restLines_join (indent descLen : Nat) (hd : 0 < descLen) (row : Text) :
    (restLines indent descLen row).flatMap (·.drop indent) = row ∧
    ∀ l ∈ restLines indent descLen row, l.length ≤ indent + descLen ∧ l.take indent = List.replicate indent ' ' := by
  induction hn : row.length using Nat.strong_induction_on generalizing row with
  | _ n ih =>
    rw [restLines]
    split
    · rename_i h
      rcases h with rfl | h
      · simp
      · omega
    · rename_i h
      have hr : row ≠ [] := fun h' => h (.inl h')
      have hp := List.length_pos_iff.2 hr
      obtain ⟨h1, h2⟩ := ih (row.drop descLen).length (by rw [List.length_drop]; omega) _ rfl
      refine ⟨?_, ?_⟩
      · rw [List.flatMap_cons, h1, List.drop_left' (by simp), List.take_append_drop]
      · intro l hl
        rcases List.mem_cons.1 hl with rfl | hl
        · refine ⟨by simp, List.take_left' (by simp)⟩
        · exact h2 l hl

/-- What `__str__` prints for a row of the table that does not start with `===`: the row is put together again by
taking the first line and the others without their indentation; only white space at the end is missing. -/
theorem wrapRow_join (ws : Char → Bool) (width indent descLen : Nat) (hd : 0 < descLen) (row : Text)
    (h : ¬ ['=', '=', '='] <+: row) :
    ∃ first rest tail, wrapRow ws width indent descLen row = first :: rest ∧
      (∀ c ∈ tail, ws c = true) ∧ first ++ rest.flatMap (·.drop indent) ++ tail = row ∧
      ∀ l ∈ rest, l.take indent = List.replicate indent ' ' := by
  unfold wrapRow
  split
  · obtain ⟨h1, h2⟩ := restLines_join indent descLen hd (rstrip ws (row.drop width))
    refine ⟨_, _, (row.drop width).rtakeWhile ws, rfl, fun c hc => List.mem_rtakeWhile_imp hc, ?_,
      fun l hl => (h2 l hl).2⟩
    rw [h1, List.append_assoc, rstrip, List.rdropWhile_append_rtakeWhile, List.take_append_drop]
  · exact ⟨row, [], [], rfl, by simp, by simp, by simp⟩

theorem wrapRow_fits (ws : Char → Bool) (width indent : Nat) (hi : indent < width) (row : Text) :
    ∀ l ∈ wrapRow ws width indent (width - indent) row, l.length ≤ width := by
  intro l hl
  unfold wrapRow at hl
  split at hl
  · rcases List.mem_cons.1 hl with rfl | hl
    · exact List.length_take_le _ _
    · split at hl
      · simp at hl
      · have := (restLines_join indent (width - indent) (by omega) _).2 l hl
        omega
  · rw [List.mem_singleton.1 hl]; omega

theorem colSizes_pos {rows : List (List Text)} (h3 : ∀ r ∈ rows, r.length = 5) :
    ∀ n ∈ colSizes colHeads rows, 0 < n := by
  obtain ⟨s1, s2⟩ := colSizes_spec (heads := colHeads) (rows := rows) h3
  intro n hn
  obtain ⟨j, hj, rfl⟩ := List.getElem_of_mem hn
  have hj' : j < colHeads.length := by omega
  obtain ⟨w, hw, hle⟩ := s2 _ List.mem_cons_self j _ (List.getElem?_eq_getElem hj')
  rw [List.getElem?_eq_getElem hj, Option.some.injEq] at hw
  have hne : ∀ c ∈ colHeads, 0 < c.length := by
    intro c hc
    simp only [colHeads, List.mem_cons, List.not_mem_nil, or_false] at hc
    rcases hc with rfl | rfl | rfl | rfl | rfl <;> simp
  have := hne _ (List.getElem_mem hj')
  omega

/-- What `__str__` prints, in terms of the table. -/
theorem optStr_eq {es : List OptEntry} (ws : Char → Bool) (width : Nat) (rows : List (List Text))
    (h1 : optRst es = .ok (tableLines colHeads rows)) (h3 : ∀ r ∈ rows, r.length = 5) :
    let sizes := colSizes colHeads rows
    optStr ws width es = .ok (if width < colStart sizes 4 + 10 then tableLines colHeads rows
      else (tableLines colHeads rows).flatMap (wrapRow ws width (colStart sizes 4) (width - colStart sizes 4))) := by
  intro sizes
  have s1 : sizes.length = 5 := (colSizes_spec (heads := colHeads) (rows := rows) h3).1
  have hh : (tableLines colHeads rows).headD [] = ruleLine sizes := rfl
  rw [optStr, h1]
  simp only [wrapTable, hh, descCol_eq sizes (colSizes_pos h3) s1]

theorem name_prefix {name rest : Text} (h : ['=', '=', '='] <+: name ++ ' ' :: rest) : ['=', '=', '='] <+: name := by
  match name, h with
  | [], h => simp at h
  | [a], h => simp at h
  | [a, b], h => simp at h
  | a :: b :: c :: name, h => simpa using h

/-- **C87 (text).** `__str__` succeeds unless an option was declared with a set of types. With room for at least ten
characters of the descriptions, no line is wider than asked for. The text has one block of lines for every line of
the table, and for an option whose name does not start with `===` the block gives the line of the table when put
together without the indentation, up to white space at the end. -/
theorem c87_complete_partial (ws : Char → Bool) (width : Nat) (es : List OptEntry) (h : ∀ e ∈ es, e.types ≠ .set) :
    ∃ (lines : List Text) (sizes : List Nat) (blocks : List (List Text)), optRst es = .ok lines ∧ optStr ws width es = .ok blocks.flatten ∧
      sizes.length = 5 ∧ blocks.length = lines.length ∧
      (width < colStart sizes 4 + 10 → blocks.flatten = lines) ∧
      (colStart sizes 4 + 10 ≤ width → ∀ l ∈ blocks.flatten, l.length ≤ width) ∧
      ∀ (k : Nat) (e : OptEntry), (sortEntries es)[k]? = some e → ¬ ['=', '=', '='] <+: e.name.toList →
        ∃ line first rest tail, lines[3 + k]? = some line ∧ ShowsIn sizes line 0 e.name.toList ∧
          ShowsIn sizes line 4 e.desc ∧ blocks[3 + k]? = some (first :: rest) ∧ (∀ c ∈ tail, ws c = true) ∧
          first ++ rest.flatMap (·.drop (colStart sizes 4)) ++ tail = line ∧
          ∀ l ∈ rest, l.take (colStart sizes 4) = List.replicate (colStart sizes 4) ' ' := by
  obtain ⟨rows, h1, h2, h3⟩ := optRst_eq h
  have hstr := optStr_eq ws width rows h1 h3
  simp only at hstr
  obtain ⟨s1, s2⟩ := colSizes_spec (heads := colHeads) (rows := rows) h3
  have s1 : (colSizes colHeads rows).length = 5 := s1
  set sizes := colSizes colHeads rows with hsz
  have hline : ∀ (k : Nat) (e : OptEntry), (sortEntries es)[k]? = some e → ∃ line,
      (tableLines colHeads rows)[3 + k]? = some line ∧ ShowsIn sizes line 0 e.name.toList ∧
      ShowsIn sizes line 4 e.desc ∧ ∃ rest, line = e.name.toList ++ ' ' :: rest := by
    intro k e hk
    obtain ⟨hk1, hk2⟩ := List.getElem?_eq_some_iff.1 hk
    have hr := h2.length_eq
    have hk3 : k < rows.length := by omega
    have hx := (List.forall₂_iff_get.1 h2).2 k hk1 hk3
    simp only [List.get_eq_getElem] at hx
    rw [hk2] at hx
    obtain ⟨t, ht⟩ := optCells_ok (h e ((sortEntries_perm es).mem_iff.1 (List.mem_of_getElem? hk)))
    rw [ht] at hx
    injection hx with hx
    have hm : rows[k] ∈ colHeads :: rows := List.mem_cons_of_mem _ (List.getElem_mem hk3)
    have hc := (cellsLine_spec sizes rows[k] (by rw [h3 _ (List.getElem_mem hk3), s1]) (fun j c hc => s2 _ hm j c hc)).2
    refine ⟨cellsLine sizes rows[k], ?_, hc 0 _ (by rw [← hx]; rfl), hc 4 _ (by rw [← hx]; rfl), ?_⟩
    · simp only [tableLines]
      rw [List.getElem?_append_left (by simp; omega), List.getElem?_append_right (by simp)]
      simp [hk3, hsz]
    · rw [← hx]
      cases hsl : sizes with
      | nil => rw [hsl] at s1; simp at s1
      | cons n ns => exact ⟨List.replicate (n - e.name.toList.length) ' ' ++ cellsLine ns [showDefault e.value, e.values, t, e.desc], by
          simp only [cellsLine, List.zip_cons_cons, List.flatMap_cons, List.append_assoc, List.cons_append]⟩
  by_cases hw : width < colStart sizes 4 + 10
  · rw [if_pos hw] at hstr
    refine ⟨tableLines colHeads rows, sizes, (tableLines colHeads rows).map ([·]), h1, ?_, s1, by simp, ?_, by omega, ?_⟩
    · rw [hstr, ← List.flatMap_def, List.flatMap_singleton']
    · intro _; rw [← List.flatMap_def, List.flatMap_singleton']
    · intro k e hk _
      obtain ⟨line, l1, l2, l3, _⟩ := hline k e hk
      exact ⟨line, line, [], [], l1, l2, l3, by simp [l1], by simp, by simp, by simp⟩
  · rw [if_neg hw] at hstr
    refine ⟨tableLines colHeads rows, sizes,
      (tableLines colHeads rows).map (wrapRow ws width (colStart sizes 4) (width - colStart sizes 4)), h1, ?_, s1,
      by simp, by omega, ?_, ?_⟩
    · rw [hstr, List.flatMap_def]
    · intro _ l hl
      rw [← List.flatMap_def] at hl
      obtain ⟨row, _, hl⟩ := List.mem_flatMap.1 hl
      exact wrapRow_fits ws width _ (by omega) row l hl
    · intro k e hk hne
      obtain ⟨line, l1, l2, l3, rest, l4⟩ := hline k e hk
      obtain ⟨first, rest', tail, w1, w2, w3, w4⟩ := wrapRow_join ws width (colStart sizes 4)
        (width - colStart sizes 4) (by omega) line (fun hp => hne (name_prefix (by rw [← l4]; exact hp)))
      exact ⟨line, first, rest', tail, l1, l2, l3, by simp [l1, w1], w2, w3, w4⟩

/-- Two rows that differ only in the last cell: the widths depend only on its length, the lines differ only in
what the last column shows. -/
theorem colSizes_last (a b c d x y : Text) (h : x.length = y.length) :
    colSizes colHeads [[a, b, c, d, x]] = colSizes colHeads [[a, b, c, d, y]] := by
  simp only [colSizes, List.foldl_cons, List.foldl_nil]
  generalize colHeads.map List.length = hs
  rcases hs with _ | ⟨n1, _ | ⟨n2, _ | ⟨n3, _ | ⟨n4, _ | ⟨n5, hs⟩⟩⟩⟩⟩ <;>
    simp only [List.zip_cons_cons, List.zip_nil_left, List.zip_nil_right, List.map_cons, List.map_nil, h]

/-- **C87 (violation).** Of an option whose name starts with `===` everything behind the width is lost: descriptions
of the same length that agree in their first `width` characters give the same text, if the text is wrapped at all. -/
theorem c87_lost (ws : Char → Bool) (width : Nat) (e : OptEntry) (d : Text) (ht : e.types ≠ .set)
    (hn : ['=', '=', '='] <+: e.name.toList) (hl : e.desc.length = d.length) (hd : e.desc.take width = d.take width)
    (hlong : width < e.desc.length)
    (hwrap : ∃ text, optStr ws width [e] = .ok text ∧ ∀ l ∈ text, l.length ≤ width) :
    optStr ws width [e] = optStr ws width [{ e with desc := d }] := by
  have hnt : ∀ {e : OptEntry}, e.types ≠ .set → ∀ x ∈ [e], x.types ≠ .set := fun h x hx => by
    rw [List.mem_singleton.1 hx]; exact h
  have hrow : ∀ {e : OptEntry} {t}, optCells e = .ok [e.name.toList, showDefault e.value, e.values, t, e.desc] →
      optRst [e] = .ok (tableLines colHeads [[e.name.toList, showDefault e.value, e.values, t, e.desc]]) := by
    intro e t h
    have hm : [e].mapM optCells = .ok [[e.name.toList, showDefault e.value, e.values, t, e.desc]] := by
      rw [List.mapM_cons, h]; rfl
    have hs : sortEntries [e] = [e] := rfl
    rw [optRst, hs, hm]
  obtain ⟨t, hc⟩ := optCells_ok ht
  have hc' : optCells { e with desc := d } = .ok [e.name.toList, showDefault e.value, e.values, t, d] := by
    unfold optCells at hc ⊢
    cases hty : e.types with
    | na => rw [hty] at hc; injection hc with hc; injection hc with _ hc; injection hc with _ hc
            injection hc with _ hc; injection hc with hc _; rw [← hc]
    | names l => rw [hty] at hc; injection hc with hc; injection hc with _ hc; injection hc with _ hc
                 injection hc with _ hc; injection hc with hc _; rw [← hc]
    | set => exact absurd hty ht
  have h5 : ∀ x : Text, ∀ r ∈ [[e.name.toList, showDefault e.value, e.values, t, x]], r.length = 5 := by
    intro x r hr; rw [List.mem_singleton.1 hr]; rfl
  have e1 := optStr_eq ws width _ (hrow hc) (h5 e.desc)
  have e2 := optStr_eq ws width _ (hrow (e := { e with desc := d }) hc') (h5 d)
  simp only at e1 e2
  have hsz := colSizes_last e.name.toList (showDefault e.value) e.values t e.desc d hl
  rw [← hsz] at e2
  obtain ⟨s1, s2⟩ := colSizes_spec (heads := colHeads)
    (rows := [[e.name.toList, showDefault e.value, e.values, t, e.desc]]) (h5 e.desc)
  have s1 : (colSizes colHeads [[e.name.toList, showDefault e.value, e.values, t, e.desc]]).length = 5 := s1
  have hbig : width < colStart (colSizes colHeads [[e.name.toList, showDefault e.value, e.values, t, e.desc]]) 5 := by
    obtain ⟨w, hw, hle⟩ := s2 _ (List.mem_cons_of_mem _ (List.mem_singleton_self _)) 4 e.desc rfl
    generalize colSizes colHeads [[e.name.toList, showDefault e.value, e.values, t, e.desc]] = sizes at s1 hw
    match sizes, s1 with
    | [a, b, c, d, f], _ =>
      simp only [List.getElem?_cons_succ, List.getElem?_cons_zero, Option.some.injEq] at hw
      simp [colStart]; omega
  have hnw : ¬ width < colStart (colSizes colHeads [[e.name.toList, showDefault e.value, e.values, t, e.desc]]) 4 + 10 := by
    intro hlt
    rw [if_pos hlt] at e1
    obtain ⟨text, ht1, ht2⟩ := hwrap
    rw [e1] at ht1
    injection ht1 with ht1
    have := ht2 (ruleLine (colSizes colHeads [[e.name.toList, showDefault e.value, e.values, t, e.desc]]))
      (by rw [← ht1]; exact List.mem_cons_self)
    rw [ruleLine_length, s1] at this
    omega
  rw [if_neg hnw] at e1 e2
  rw [e1, e2]
  simp only [tableLines, ← hsz, List.map_cons, List.map_nil, List.cons_append, List.nil_append, List.flatMap_cons]
  have hline : ∀ x : Text, x.length = e.desc.length →
      wrapRow ws width (colStart (colSizes colHeads [[e.name.toList, showDefault e.value, e.values, t, e.desc]]) 4)
        (width - colStart (colSizes colHeads [[e.name.toList, showDefault e.value, e.values, t, e.desc]]) 4)
        (cellsLine (colSizes colHeads [[e.name.toList, showDefault e.value, e.values, t, e.desc]])
          [e.name.toList, showDefault e.value, e.values, t, x])
      = [(cellsLine (colSizes colHeads [[e.name.toList, showDefault e.value, e.values, t, e.desc]])
          [e.name.toList, showDefault e.value, e.values, t, x]).take width] := by
    intro x hx
    have hlen := (cellsLine_spec _ [e.name.toList, showDefault e.value, e.values, t, x] (by rw [s1]; rfl) (by
      intro j c hj
      rw [← colSizes_last e.name.toList (showDefault e.value) e.values t x e.desc hx]
      exact (colSizes_spec (heads := colHeads) (h5 x)).2 _ (List.mem_cons_of_mem _ (List.mem_singleton_self _)) j c hj)).1
    rw [s1] at hlen
    have hp : ['=', '=', '='] <+: cellsLine (colSizes colHeads [[e.name.toList, showDefault e.value, e.values, t, e.desc]])
        [e.name.toList, showDefault e.value, e.values, t, x] := by
      refine hn.trans ?_
      generalize colSizes colHeads [[e.name.toList, showDefault e.value, e.values, t, e.desc]] = sizes at s1
      match sizes, s1 with
      | [a, b, c, d, f], _ =>
        simp only [cellsLine, List.zip_cons_cons, List.flatMap_cons, List.append_assoc]
        exact List.prefix_append _ _
    rw [wrapRow, if_pos (by rw [hlen]; exact hbig), if_pos hp]
  rw [hline e.desc rfl, hline d hl.symm]
  have htake : ∀ (sizes : List Nat) (a b c f : Text), sizes.length = 5 →
      (cellsLine sizes [a, b, c, f, e.desc]).take width = (cellsLine sizes [a, b, c, f, d]).take width := by
    intro sizes a b c f hs
    match sizes, hs with
    | [n1, n2, n3, n4, n5], _ =>
      simp only [cellsLine, List.zip_cons_cons, List.flatMap_cons, List.zip_nil_right, List.flatMap_nil, List.append_nil]
      have : ∀ P R R' : Text, (P ++ (e.desc ++ R)).take width = (P ++ (d ++ R')).take width := by
        intro P R R'
        have h1 : width - P.length ≤ e.desc.length := by omega
        have h2 : width - P.length ≤ d.length := by omega
        have := congrArg (List.take (width - P.length)) hd
        rw [List.take_take, List.take_take, Nat.min_eq_left (by omega)] at this
        rw [List.take_append, List.take_append (l₁ := P), List.take_append_of_le_length h1,
          List.take_append_of_le_length h2, this]
      simp only [← List.append_assoc]
      simp only [List.append_assoc _ e.desc, List.append_assoc _ d]
      exact this _ _ _
  rw [htake _ _ _ _ _ s1]

/-! ## Examples -/

/-- Two options, one of them required. -/
def tableOptions : List OptEntry :=
  [⟨"shape", none, "N/A".toList, .names ["tuple".toList], "Shape of the variable".toList⟩,
   ⟨"axis", some "0".toList, "N/A".toList, .names ["int".toList], []⟩]

example : ∀ e ∈ tableOptions, e.types ≠ .set := by
  intro e he
  simp only [tableOptions, List.mem_cons, List.not_mem_nil, or_false] at he
  rcases he with rfl | rfl <;> exact fun h => by cases h

/-- An option with an unlucky name and a long description. -/
def unluckyOption (last : Char) : OptEntry := ⟨"=== x", none, ['N'], .na, List.replicate 150 'a' ++ [last]⟩

example : (unluckyOption 'b').types ≠ .set ∧ ['=', '=', '='] <+: (unluckyOption 'b').name.toList ∧
    (unluckyOption 'b').desc.length = (unluckyOption 'c').desc.length ∧
    (unluckyOption 'b').desc.take 100 = (unluckyOption 'c').desc.take 100 ∧ 100 < (unluckyOption 'b').desc.length :=
  ⟨fun h => (by cases h), by decide +kernel, by decide +kernel, by decide +kernel, by decide +kernel⟩

example : ∃ text, optStr Char.isWhitespace 100 [unluckyOption 'b'] = .ok text ∧ ∀ l ∈ text, l.length ≤ 100 := by
  have : (match optStr Char.isWhitespace 100 [unluckyOption 'b'] with
    | .ok text => text.all fun l => l.length ≤ 100
    | .error _ => false) = true := by decide +kernel
  split at this
  · rename_i text h
    exact ⟨text, h, by simpa using this⟩
  · cases this

/-- An object is shown by the name of its class. -/
example : showDefault (some "<pkg.mod.Solver object at 0x7f>".toList) = "Solver".toList := by decide +kernel

end OM

import Verif.Model.Scripts
import Mathlib.Data.List.Basic
import Mathlib.Data.List.Forall2
import Mathlib.Data.List.TakeWhile

/-!
# C90: the content of the generated example scripts
-/

namespace OM

/-! ## Import statements -/

/-- `g` is the line `l` without its indentation. -/
def Unindented (l g : Line) : Prop :=
  ∃ a, l = a ++ g ∧ (∀ x ∈ a, x.isWhitespace = true) ∧ ∀ x, g.head? = some x → x.isWhitespace = false

/-- The first word of the line starts with `import` or `from`. -/
def StartsImport (l : Line) : Prop :=
  ∃ a b, (∀ x ∈ a, x.isWhitespace = true) ∧ (l = a ++ "import".toList ++ b ∨ l = a ++ "from".toList ++ b)

theorem lstrip_unindented (l : Line) : Unindented l (lstrip l) := by
  refine ⟨l.takeWhile Char.isWhitespace, (List.takeWhile_append_dropWhile).symm, ?_, ?_⟩
  · intro x hx
    exact List.mem_takeWhile_imp hx
  · intro x hx
    unfold lstrip at hx
    have := List.head?_dropWhile_not Char.isWhitespace l
    rw [hx] at this
    simpa using this

theorem unindented_unique {l g h : Line} (hg : Unindented l g) (hh : Unindented l h) : g = h := by
  obtain ⟨a, rfl, ha, hg⟩ := hg
  obtain ⟨b, e, hb, hh⟩ := hh
  induction a generalizing b with
  | nil =>
    cases b with
    | nil => simpa using e
    | cons y b =>
      have hy := hb y (by simp)
      have : g.head? = some y := by
        have := congrArg List.head? e
        simpa using this
      rw [hg y this] at hy
      cases hy
  | cons x a ih =>
    cases b with
    | nil =>
      have hx := ha x (by simp)
      have : h.head? = some x := by
        have := congrArg List.head? e
        simpa using this.symm
      rw [hh x this] at hx
      cases hx
    | cons y b =>
      simp only [List.cons_append, List.cons.injEq] at e
      exact ih (fun z hz => ha z (by simp [hz])) b e.2 (fun z hz => hb z (by simp [hz]))

theorem looksLikeImport_iff (l : Line) : looksLikeImport (lstrip l) = true ↔ StartsImport l := by
  unfold looksLikeImport
  rw [Bool.or_eq_true, List.isPrefixOf_iff_prefix, List.isPrefixOf_iff_prefix]
  constructor
  · obtain ⟨a, ha, hw, _⟩ := lstrip_unindented l
    rintro (⟨b, hb⟩ | ⟨b, hb⟩)
    · exact ⟨a, b, hw, .inl (by rw [List.append_assoc, hb]; exact ha)⟩
    · exact ⟨a, b, hw, .inr (by rw [List.append_assoc, hb]; exact ha)⟩
  · rintro ⟨a, b, hw, h | h⟩
    · left
      have : Unindented l ("import".toList ++ b) := by
        refine ⟨a, by rw [h, List.append_assoc], hw, ?_⟩
        intro x hx
        have : x = 'i' := by simpa using hx.symm
        subst this; decide
      rw [unindented_unique (lstrip_unindented l) this]
      exact ⟨b, rfl⟩
    · right
      have : Unindented l ("from".toList ++ b) := by
        refine ⟨a, by rw [h, List.append_assoc], hw, ?_⟩
        intro x hx
        have : x = 'f' := by simpa using hx.symm
        subst this; decide
      rw [unindented_unique (lstrip_unindented l) this]
      exact ⟨b, rfl⟩

/-- A statement, or anything else in a file, with its lines. -/
structure FileStmt where
  isImport : Bool
  lines : List Line

/-- `block` has the import statements of the file, unindented and in order. -/
def ImportsOf (file : List FileStmt) (block : List Line) : Prop :=
  List.Forall₂ Unindented ((file.filter FileStmt.isImport).flatMap FileStmt.lines) block

theorem importsOf_iff (file : List FileStmt) (block : List Line) :
    ImportsOf file block ↔ block = ((file.filter FileStmt.isImport).flatMap FileStmt.lines).map lstrip := by
  unfold ImportsOf
  generalize (file.filter FileStmt.isImport).flatMap FileStmt.lines = ls
  constructor
  · intro h
    induction h with
    | nil => rfl
    | cons h _ ih => rw [List.map_cons, ← ih, unindented_unique h (lstrip_unindented _)]
  · rintro rfl
    induction ls with
    | nil => exact .nil
    | cons l ls ih => exact .cons (lstrip_unindented l) ih

/-- The lines with the statement they are part of. -/
theorem gather_length_le (file : List FileStmt)
    (h : ∀ s ∈ file, s.isImport = true → ∀ l ∈ s.lines, StartsImport l) :
    ((file.filter FileStmt.isImport).flatMap FileStmt.lines).length ≤
      (gatherImports (file.flatMap FileStmt.lines)).length := by
  induction file with
  | nil => simp
  | cons s file ih =>
    have ih := ih fun t ht => h t (by simp [ht])
    have e : gatherImports ((s :: file).flatMap FileStmt.lines) =
        gatherImports s.lines ++ gatherImports (file.flatMap FileStmt.lines) := by
      simp [gatherImports]
    rw [e, List.length_append]
    cases hs : s.isImport with
    | false => simp only [List.filter_cons, hs]; simp only [Bool.false_eq_true, if_false]; omega
    | true =>
      simp only [List.filter_cons, hs, if_true, List.flatMap_cons, List.length_append]
      have : gatherImports s.lines = s.lines.map lstrip := by
        unfold gatherImports
        rw [List.filter_eq_self]
        intro g hg
        obtain ⟨l, hl, rfl⟩ := List.mem_map.1 hg
        exact (looksLikeImport_iff l).2 (h s (by simp) hs l hl)
      rw [this, List.length_map]
      omega

/-- **C90**, imports, exactly: the script has the import statements of the file if and only if every line of them starts
with `import` or `from` and no other line does. -/
theorem c90_imports_exact (file : List FileStmt) :
    ImportsOf file (gatherImports (file.flatMap FileStmt.lines)) ↔
      ∀ s ∈ file, ∀ l ∈ s.lines, StartsImport l ↔ s.isImport = true := by
  rw [importsOf_iff]
  constructor
  · intro h
    have h1 : ∀ s ∈ file, s.isImport = true → ∀ l ∈ s.lines, StartsImport l := by
      intro s hs hi l hl
      have : lstrip l ∈ gatherImports (file.flatMap FileStmt.lines) := by
        rw [h]
        exact List.mem_map_of_mem (List.mem_flatMap.2 ⟨s, List.mem_filter.2 ⟨hs, hi⟩, hl⟩)
      exact (looksLikeImport_iff l).1 (List.mem_filter.1 this).2
    have hlen := congrArg List.length h
    rw [List.length_map] at hlen
    clear h
    induction file with
    | nil => simp
    | cons s file ih =>
      have h1' : ∀ t ∈ file, t.isImport = true → ∀ l ∈ t.lines, StartsImport l := fun t ht => h1 t (by simp [ht])
      have hle := gather_length_le file h1'
      have e : gatherImports ((s :: file).flatMap FileStmt.lines) =
          gatherImports s.lines ++ gatherImports (file.flatMap FileStmt.lines) := by
        simp [gatherImports]
      rw [e, List.length_append] at hlen
      cases hs : s.isImport with
      | false =>
        simp only [List.filter_cons, hs, Bool.false_eq_true, if_false] at hlen
        have h0 : gatherImports s.lines = [] := List.length_eq_zero_iff.1 (by omega)
        intro t ht
        rcases List.mem_cons.1 ht with rfl | ht
        · intro l hl
          rw [hs]
          refine iff_of_false (fun hst => ?_) (by decide)
          have : lstrip l ∈ gatherImports t.lines :=
            List.mem_filter.2 ⟨List.mem_map_of_mem hl, (looksLikeImport_iff l).2 hst⟩
          rw [h0] at this
          cases this
        · exact ih h1' (by omega) t ht
      | true =>
        simp only [List.filter_cons, hs, if_true, List.flatMap_cons, List.length_append] at hlen
        have h0' : (gatherImports s.lines).length = s.lines.length := by
          have : gatherImports s.lines = s.lines.map lstrip := by
            unfold gatherImports
            rw [List.filter_eq_self]
            intro g hg
            obtain ⟨l, hl, rfl⟩ := List.mem_map.1 hg
            exact (looksLikeImport_iff l).2 (h1 s (by simp) hs l hl)
          rw [this, List.length_map]
        intro t ht
        rcases List.mem_cons.1 ht with rfl | ht
        · exact fun l hl => iff_of_true (h1 t (by simp) hs l hl) hs
        · exact ih h1' (by omega) t ht
  · intro h
    unfold gatherImports
    induction file with
    | nil => rfl
    | cons s file ih =>
      have ih := ih fun t ht => h t (by simp [ht])
      rw [List.flatMap_cons, List.map_append, List.filter_append, ih]
      cases hs : s.isImport with
      | false =>
        have : (s.lines.map lstrip).filter looksLikeImport = [] := by
          rw [List.filter_eq_nil_iff]
          intro g hg
          obtain ⟨l, hl, rfl⟩ := List.mem_map.1 hg
          rw [looksLikeImport_iff, h s (by simp) l hl, hs]
          decide
        rw [this, List.filter_cons, hs]
        rfl
      | true =>
        have : (s.lines.map lstrip).filter looksLikeImport = s.lines.map lstrip := by
          rw [List.filter_eq_self]
          intro g hg
          obtain ⟨l, hl, rfl⟩ := List.mem_map.1 hg
          exact (looksLikeImport_iff l).2 ((h s (by simp) l hl).2 hs)
        rw [this, List.filter_cons, hs]
        simp

/-- The code violates **C90**: of an import statement over several lines the script only has the lines that start with
`import` or `from`, so usually the first. -/
theorem c90_multiline_violated (before after : List FileStmt) (l : Line) (more : List Line) (hm : more ≠ [])
    (hl : StartsImport l) (hn : ∀ m ∈ more, ¬ StartsImport m) :
    let file := before ++ ⟨true, l :: more⟩ :: after
    gatherImports (file.flatMap FileStmt.lines) = gatherImports (before.flatMap FileStmt.lines) ++ lstrip l ::
        gatherImports (after.flatMap FileStmt.lines) ∧
      ¬ ImportsOf file (gatherImports (file.flatMap FileStmt.lines)) := by
  intro file
  constructor
  · have h1 : looksLikeImport (lstrip l) = true := (looksLikeImport_iff l).2 hl
    have h2 : (more.map lstrip).filter looksLikeImport = [] := by
      rw [List.filter_eq_nil_iff]
      intro g hg
      obtain ⟨m, hm, rfl⟩ := List.mem_map.1 hg
      rw [looksLikeImport_iff]
      exact hn m hm
    simp [file, gatherImports, h1, h2]
  · rw [c90_imports_exact]
    intro h
    obtain ⟨m, ms, rfl⟩ := List.exists_cons_of_ne_nil hm
    exact hn m (by simp) ((h ⟨true, l :: m :: ms⟩ (by simp [file]) m (by simp)).2 rfl)

/-- A file with two imports and a class. -/
example : let file : List FileStmt := [⟨true, ["import numpy as np".toList]⟩,
      ⟨true, ["    from omtools.api import Group".toList]⟩, ⟨false, [[], "class ExampleA(Group):".toList, "    pass".toList]⟩]
    ImportsOf file (gatherImports (file.flatMap FileStmt.lines)) ∧
    gatherImports (file.flatMap FileStmt.lines) = ["import numpy as np".toList, "from omtools.api import Group".toList] := by
  refine ⟨?_, by decide +kernel⟩
  rw [importsOf_iff]
  decide +kernel

/-- The hypotheses of `c90_multiline_violated`. -/
example : StartsImport "from a import (".toList ∧ ∀ m ∈ ["    b)".toList], ¬ StartsImport m := by
  refine ⟨(looksLikeImport_iff _).1 (by decide +kernel), ?_⟩
  intro m hm
  rw [List.mem_singleton.1 hm, ← looksLikeImport_iff]
  decide +kernel

/-! ## The class -/

/-- The line has `:param` and a colon after it. -/
def HasParam (l : Line) : Prop := ∃ a b c, l = a ++ ":param".toList ++ b ++ ':' :: c

/-- The line has three quotation marks in it. -/
def HasQuotes (l : Line) : Prop := ∃ a b, l = a ++ tripleQuote ++ b

/-- The line ends with three quotation marks. -/
def EndsInQuotes (l : Line) : Prop := ∃ a, l = a ++ tripleQuote

theorem param_length : (":param".toList).length = 6 := by decide

theorem isParamLine_iff (l : Line) : isParamLine l = true ↔ HasParam l := by
  induction l with
  | nil =>
    refine iff_of_false (by simp [isParamLine]) ?_
    rintro ⟨a, b, c, h⟩
    simp at h
  | cons x l ih =>
    rw [isParamLine, Bool.or_eq_true, Bool.and_eq_true, List.isPrefixOf_iff_prefix, ih]
    constructor
    · rintro (⟨⟨t, ht⟩, h⟩ | ⟨a, b, c, h⟩)
      · have hd : l.drop 5 = t := by
          have := congrArg (List.drop 6) ht
          rw [List.drop_append_of_le_length (by rw [param_length])] at this
          simpa using this.symm
        rw [hd] at h
        obtain ⟨b, c, hbc⟩ := List.append_of_mem (List.contains_iff_mem.1 h)
        exact ⟨[], b, c, by rw [← ht, hbc]; simp⟩
      · exact ⟨x :: a, b, c, by rw [h]; simp⟩
    · rintro ⟨a, b, c, h⟩
      cases a with
      | nil =>
        left
        have h' : x :: l = ":param".toList ++ (b ++ ':' :: c) := by rw [h]; simp
        refine ⟨⟨_, h'.symm⟩, ?_⟩
        have hd : l.drop 5 = b ++ ':' :: c := by
          have := congrArg (List.drop 6) h'
          rw [List.drop_append_of_le_length (by rw [param_length])] at this
          simpa using this
        rw [hd]
        simp
      | cons y a =>
        right
        simp only [List.cons_append, List.cons.injEq] at h
        exact ⟨a, b, c, h.2⟩

theorem afterLastQuote_none (l : Line) : afterLastQuote l = none ↔ ¬ HasQuotes l := by
  induction l with
  | nil =>
    refine iff_of_true rfl ?_
    rintro ⟨a, b, h⟩
    simp [tripleQuote] at h
  | cons x l ih =>
    have key : HasQuotes (x :: l) ↔ HasQuotes l ∨ tripleQuote <+: x :: l := by
      constructor
      · rintro ⟨a, b, h⟩
        cases a with
        | nil => exact .inr ⟨b, by simpa using h.symm⟩
        | cons y a =>
          simp only [List.cons_append, List.cons.injEq] at h
          exact .inl ⟨a, b, h.2⟩
      · rintro (⟨a, b, h⟩ | ⟨b, h⟩)
        · exact ⟨x :: a, b, by rw [h]; simp⟩
        · exact ⟨[], b, by simpa using h.symm⟩
    rw [key, afterLastQuote]
    cases h : afterLastQuote l with
    | some r =>
      have : HasQuotes l := by
        by_contra hn
        rw [ih.2 hn] at h
        cases h
      simp [this]
    | none =>
      have hn := ih.1 h
      by_cases hp : tripleQuote <+: x :: l
      · simp [hp]
      · simp [hp, hn]

/-- What follows the last quotation marks. -/
theorem afterLastQuote_append (a : Line) {r : Line} (hr : ¬ HasQuotes ('"' :: '"' :: r)) :
    afterLastQuote (a ++ tripleQuote ++ r) = some r := by
  induction a with
  | nil =>
    have h2 : afterLastQuote ('"' :: '"' :: r) = none := (afterLastQuote_none _).2 hr
    show afterLastQuote ('"' :: '"' :: '"' :: r) = some r
    rw [afterLastQuote, h2]
    simp [tripleQuote]
  | cons x a ih =>
    show afterLastQuote (x :: (a ++ tripleQuote ++ r)) = some r
    rw [afterLastQuote, ih]

/-- No line that ends with three quotation marks is followed by a line that has some. -/
def NoPair (ls : List Line) : Prop := ∀ pre a b post, ls = pre ++ a :: b :: post → EndsInQuotes a → ¬ HasQuotes b

theorem endsInQuotes_iff (l : Line) : tripleQuote.isSuffixOf l = true ↔ EndsInQuotes l := by
  rw [List.isSuffixOf_iff_suffix]
  exact ⟨fun ⟨a, h⟩ => ⟨a, h.symm⟩, fun ⟨a, h⟩ => ⟨a, h.symm⟩⟩

theorem NoPair.tail {a : Line} {ls : List Line} (h : NoPair (a :: ls)) : NoPair ls :=
  fun pre x y post e => h (a :: pre) x y post (by rw [e]; rfl)

theorem dropQuotes_keeps (cur : Line) (ls : List Line) (h : NoPair ls) : dropQuotes cur ls = cur :: ls := by
  induction ls generalizing cur with
  | nil => rfl
  | cons a ls ih =>
    cases ls with
    | nil => rfl
    | cons b rest =>
      rw [dropQuotes]
      split
      · rename_i r ha hb
        have h1 := h [] a b rest rfl ((endsInQuotes_iff a).1 ha)
        rw [(afterLastQuote_none b).2 h1] at hb
        cases hb
      · rw [ih a h.tail]

theorem dropQuotes_prefix (cur : Line) (pre : List Line) (hp : ∀ l ∈ pre, ¬ HasQuotes l) (last : Line) (a : Line)
    (rest : List Line) (hl : ¬ HasQuotes last) :
    dropQuotes cur (pre ++ last :: a :: rest) = cur :: pre ++ dropQuotes last (a :: rest) := by
  have hne : ∀ l, ¬ HasQuotes l → tripleQuote.isSuffixOf l = false := by
    intro l hl
    rw [← Bool.not_eq_true, endsInQuotes_iff]
    rintro ⟨x, rfl⟩
    exact hl ⟨x, [], by simp⟩
  induction pre generalizing cur with
  | nil =>
    show dropQuotes cur (last :: a :: rest) = _
    rw [dropQuotes, hne last hl]
    rfl
  | cons p pre ih =>
    have ih := ih p (fun l hl => hp l (by simp [hl]))
    have hp := hne p (hp p (by simp))
    obtain ⟨q, qs, hq⟩ : ∃ q qs, pre ++ last :: a :: rest = q :: qs := by
      cases pre <;> exact ⟨_, _, rfl⟩
    show dropQuotes cur (p :: (pre ++ last :: a :: rest)) = _
    rw [hq] at ih ⊢
    rw [dropQuotes, hp]
    show cur :: dropQuotes p (q :: qs) = _
    rw [ih]
    rfl

theorem dropParams_keeps {ls : List Line} (h : ∀ l ∈ ls, ¬ HasParam l) : dropParams ls = ls := by
  unfold dropParams
  rw [List.filter_eq_self]
  intro l hl
  have := h l hl
  rw [← isParamLine_iff, Bool.not_eq_true] at this
  rw [this]
  rfl

/-- **C90** (partial), the class: a class statement with a docstring of nothing but parameters is in the script without its
docstring, line by line; `quotes` and `quotes'` are the lines around the parameters. Missing: classes with code that looks like
parameters or has quotation marks on two lines in a row, for which this is false (`c90_param_lost`, `c90_quotes_lost`). -/
theorem c90_source_partial {head quotes quotes' : Line} {params body : List Line}
    (hh : ¬ HasParam head) (hb : ∀ l ∈ body, ¬ HasParam l) (hp : ∀ l ∈ params, HasParam l)
    (hq : EndsInQuotes quotes) (hq' : EndsInQuotes quotes') (hn : ¬ HasParam quotes) (hn' : ¬ HasParam quotes')
    (hpair : NoPair body) :
    scriptSource (head :: quotes :: params ++ quotes' :: body) = head :: body := by
  have h1 : dropParams (head :: quotes :: params ++ quotes' :: body) = head :: quotes :: quotes' :: body := by
    have hps : dropParams params = [] := by
      unfold dropParams
      rw [List.filter_eq_nil_iff]
      intro l hl
      rw [(isParamLine_iff l).2 (hp l hl)]
      decide
    have e : dropParams (head :: quotes :: params ++ quotes' :: body) =
        dropParams [head, quotes] ++ dropParams params ++ dropParams (quotes' :: body) := by
      unfold dropParams
      rw [← List.filter_append, ← List.filter_append]
      rfl
    rw [e, hps, dropParams_keeps (ls := [head, quotes]), dropParams_keeps (ls := quotes' :: body)]
    · rfl
    · intro l hl
      rcases List.mem_cons.1 hl with rfl | hl
      · exact hn'
      · exact hb l hl
    · intro l hl
      rcases List.mem_cons.1 hl with rfl | hl
      · exact hh
      · rw [List.mem_singleton.1 hl]; exact hn
  unfold scriptSource
  rw [h1]
  show dropQuotes head (quotes :: quotes' :: body) = _
  obtain ⟨x, rfl⟩ := hq'
  have h2 : afterLastQuote (x ++ tripleQuote) = some [] := by
    have := afterLastQuote_append x (r := []) (by
      rintro ⟨a, b, h⟩
      have := congrArg List.length h
      simp [tripleQuote] at this
      omega)
    simpa using this
  rw [dropQuotes, (endsInQuotes_iff quotes).2 hq, h2]
  show dropQuotes (head ++ []) body = _
  rw [List.append_nil, dropQuotes_keeps _ _ hpair]

/-- The same without a docstring, and with one that has more in it: nothing but the parameters is left out. -/
theorem c90_source_other_partial {head : Line} {body : List Line} (hh : ¬ HasParam head)
    (hpair : NoPair (dropParams body)) :
    ∃ kept, scriptSource (head :: body) = head :: kept ∧ kept.Sublist body ∧
      ∀ l, l ∈ kept ↔ l ∈ body ∧ ¬ HasParam l := by
  refine ⟨dropParams body, ?_, List.filter_sublist, ?_⟩
  · have : dropParams (head :: body) = head :: dropParams body := by
      unfold dropParams
      rw [List.filter_cons]
      rw [← isParamLine_iff, Bool.not_eq_true] at hh
      rw [hh]
      rfl
    unfold scriptSource
    rw [this]
    exact dropQuotes_keeps _ _ hpair
  · intro l
    unfold dropParams
    rw [List.mem_filter, ← isParamLine_iff]
    cases isParamLine l <;> simp

/-- The code violates **C90**: a line of code that has `:param` and a colon after it is left out, wherever it is. -/
theorem c90_param_lost (pre post : List Line) {l : Line} (hl : HasParam l) :
    scriptSource (pre ++ l :: post) = scriptSource (pre ++ post) := by
  have : dropParams (pre ++ l :: post) = dropParams (pre ++ post) := by
    unfold dropParams
    rw [List.filter_append, List.filter_append, List.filter_cons, (isParamLine_iff l).2 hl]
    rfl
  unfold scriptSource
  rw [this]

/-- The code violates **C90**: a statement `x = """` with the closing quotation marks on the next line is left out. -/
theorem c90_quotes_lost {head last x y : Line} {pre post : List Line}
    (hno : ∀ l ∈ head :: pre ++ [last], ¬ HasQuotes l)
    (hpar : ∀ l ∈ head :: pre ++ last :: (x ++ tripleQuote) :: (y ++ tripleQuote) :: post, ¬ HasParam l)
    (hpost : NoPair post) :
    scriptSource (head :: pre ++ last :: (x ++ tripleQuote) :: (y ++ tripleQuote) :: post) =
      head :: pre ++ last :: post := by
  have h2 : afterLastQuote (y ++ tripleQuote) = some [] := by
    have := afterLastQuote_append y (r := []) (by
      rintro ⟨a, b, h⟩
      have := congrArg List.length h
      simp [tripleQuote] at this
      omega)
    simpa using this
  have h3 : tripleQuote.isSuffixOf (x ++ tripleQuote) = true := (endsInQuotes_iff _).2 ⟨x, rfl⟩
  unfold scriptSource
  rw [dropParams_keeps hpar]
  show dropQuotes head (pre ++ last :: (x ++ tripleQuote) :: (y ++ tripleQuote) :: post) = _
  rw [dropQuotes_prefix head pre (fun l hl => hno l (by simp [hl])) last _ _ (hno last (by simp)),
    dropQuotes, h3, h2]
  show head :: pre ++ dropQuotes (last ++ []) post = _
  rw [List.append_nil, dropQuotes_keeps _ _ hpost]

/-- `out` are the lines of `cur` and `ls` without any two lines of which the first ends with three quotation marks and the second
has some; what follows the last ones is put at the end of the line before. -/
inductive Squeezed : Line → List Line → List Line → Prop
  | done (cur : Line) : Squeezed cur [] [cur]
  | keep {cur a : Line} {ls out : List Line} : (EndsInQuotes a → ∀ b ∈ ls.head?, ¬ HasQuotes b) → Squeezed a ls out →
      Squeezed cur (a :: ls) (cur :: out)
  | drop {cur a r : Line} (y : Line) {ls out : List Line} : EndsInQuotes a → ¬ HasQuotes ('"' :: '"' :: r) →
      Squeezed (cur ++ r) ls out → Squeezed cur (a :: (y ++ tripleQuote ++ r) :: ls) out

theorem afterLastQuote_some {l r : Line} (h : afterLastQuote l = some r) :
    ∃ y, l = y ++ tripleQuote ++ r ∧ ¬ HasQuotes ('"' :: '"' :: r) := by
  induction l with
  | nil => cases h
  | cons x l ih =>
    rw [afterLastQuote] at h
    split at h
    · rename_i r' h'
      obtain rfl := Option.some.inj h
      obtain ⟨y, hy, hn⟩ := ih h'
      exact ⟨x :: y, by rw [hy]; rfl, hn⟩
    · rename_i h'
      split at h
      · rename_i hp
        obtain ⟨t, ht⟩ := List.isPrefixOf_iff_prefix.1 hp
        obtain rfl := Option.some.inj h
        have hl : l = '"' :: '"' :: t := by
          have := (List.cons.inj ht).2
          exact this.symm
        subst hl
        refine ⟨[], ?_, (afterLastQuote_none _).1 h'⟩
        exact ht.symm
      · cases h

theorem dropQuotes_squeezed (n : Nat) : ∀ (cur : Line) (ls : List Line), ls.length ≤ n →
    Squeezed cur ls (dropQuotes cur ls) := by
  induction n with
  | zero =>
    intro cur ls h
    obtain rfl := List.length_eq_zero_iff.1 (Nat.le_zero.1 h)
    exact .done cur
  | succ n ih =>
    intro cur ls h
    match ls with
    | [] => exact .done cur
    | [a] => exact .keep (by intro _ b hb; cases hb) (.done a)
    | a :: b :: rest =>
      have hn : rest.length + 1 ≤ n := by simpa using h
      rw [dropQuotes]
      split
      · rename_i r ha hb
        obtain ⟨y, rfl, hr⟩ := afterLastQuote_some hb
        exact .drop y ((endsInQuotes_iff a).1 ha) hr (ih _ _ (by omega))
      · rename_i hno
        refine .keep ?_ (ih a (b :: rest) hn)
        intro ha b' hb'
        obtain rfl : b = b' := by simpa using hb'
        by_contra hq
        cases hc : afterLastQuote b with
        | none => exact (afterLastQuote_none b).1 hc hq
        | some r => exact hno r ((endsInQuotes_iff a).2 ha) hc

open Classical in
/-- **C90**, the class, exactly, for every class: the lines that are no parameters, without pairs of lines with quotation marks. -/
theorem c90_source_exact {source : List Line} {head : Line} {rest : List Line}
    (h : (source.filter fun l => ¬ HasParam l) = head :: rest) : Squeezed head rest (scriptSource source) := by
  have h1 : dropParams source = head :: rest := by
    rw [← h]
    unfold dropParams
    congr 1
    funext l
    have := isParamLine_iff l
    cases hl : isParamLine l with
    | false => simp [← this, hl]
    | true => simp [← this, hl]
  unfold scriptSource
  rw [h1]
  exact dropQuotes_squeezed _ _ _ le_rfl

/-- A class as in the examples. -/
example : scriptSource ["class ExampleA(Group):".toList, "    \"\"\"".toList, "    :param var: y".toList,
      "    \"\"\"".toList, "    def setup(self):".toList, "        pass".toList] =
    ["class ExampleA(Group):".toList, "    def setup(self):".toList, "        pass".toList] := by decide +kernel

/-- The hypotheses of `c90_source_partial` hold for it. -/
example : HasParam "    :param var: y".toList ∧ EndsInQuotes "    \"\"\"".toList ∧
    ¬ HasParam "    \"\"\"".toList ∧ ¬ HasParam "    def setup(self):".toList := by
  refine ⟨(isParamLine_iff _).1 (by decide +kernel), ⟨"    ".toList, by decide +kernel⟩, ?_, ?_⟩ <;>
    rw [← isParamLine_iff] <;> decide +kernel

/-- Code that is lost. -/
example : scriptSource ["class ExampleA(Group):".toList, "    def setup(self):".toList,
      "        s = \"\"\"".toList, "        \"\"\"".toList, "        d = {':param': 1}".toList] =
    ["class ExampleA(Group):".toList, "    def setup(self):".toList] := by decide +kernel

/-! ## The problem -/

/-- OpenMDAO can run it. -/
def Runnable (c : ExampleClass) : Prop := "Group".toList ∈ c.mro ∨ "Component".toList ∈ c.mro

/-- The options as arguments of a call. -/
def arguments (c : ExampleClass) : Line := c.options.flatMap fun o => o ++ [',']

/-- The statement in a list of lines, without indentation. -/
def statement (ls : List Line) : Line := (ls.map lstrip).flatten

theorem lstrip_of_head {l : Line} (h : ∀ x, l.head? = some x → x.isWhitespace = false) : lstrip l = l :=
  unindented_unique (lstrip_unindented l) ⟨[], rfl, by simp, h⟩

theorem lstrip_spaces {l : Line} (h : ∀ x, l.head? = some x → x.isWhitespace = false) :
    lstrip ("    ".toList ++ l) = l :=
  unindented_unique (lstrip_unindented _) ⟨"    ".toList, rfl, by decide +kernel, h⟩

theorem statement_options (c : ExampleClass) (h : ∀ o ∈ c.options, ∀ x, (o ++ [',']).head? = some x → x.isWhitespace = false) :
    statement (c.options.map optionLine) = arguments c := by
  unfold statement arguments
  rw [List.map_map, ← List.flatMap_def]
  refine List.flatMap_congr fun o ho => ?_
  show lstrip (optionLine o) = _
  unfold optionLine
  rw [List.append_assoc]
  exact lstrip_spaces (h o ho)

theorem statement_append (a b : List Line) : statement (a ++ b) = statement a ++ statement b := by
  simp [statement]

/-- Names and options start with no white space. -/
def ExampleClass.Plain (c : ExampleClass) : Prop :=
  (∀ o ∈ c.options, ∀ x, (o ++ [',']).head? = some x → x.isWhitespace = false) ∧
    ∀ x, (c.name ++ "(".toList).head? = some x → x.isWhitespace = false

theorem head_p (l : Line) : ∀ x, ("prob.model".toList ++ l).head? = some x → x.isWhitespace = false := by
  intro x hx
  have : x = 'p' := by simpa using hx.symm
  subst this; decide

/-- **C90**, groups: the model of the problem is the class with its options as arguments, in order. -/
theorem c90_group {c : ExampleClass} (hc : c.Plain) (hg : "Group".toList ∈ c.mro) :
    ∃ call, writeSetup c = ("prob = Problem()".toList :: call ++
        ["prob.setup(force_alloc_complex=True)".toList, "prob.run_model()".toList], none) ∧
      statement call = "prob.model = ".toList ++ c.name ++ "(".toList ++ arguments c ++ ")".toList := by
  unfold writeSetup
  rw [if_pos hg]
  have e : "prob.model = ".toList = "prob.model".toList ++ " = ".toList := by decide +kernel
  by_cases ho : c.options = []
  · refine ⟨["prob.model = ".toList ++ c.name ++ "()".toList], by rw [if_pos ho], ?_⟩
    have h1 : lstrip ("prob.model = ".toList ++ c.name ++ "()".toList) = _ := lstrip_of_head (by
      rw [e, List.append_assoc, List.append_assoc]; exact head_p _)
    have e2 : "()".toList = "(".toList ++ ")".toList := by decide +kernel
    simp only [statement, List.map_cons, List.map_nil, List.flatten_cons, List.flatten_nil, h1, arguments, ho,
      List.flatMap_nil, List.append_nil]
    rw [e2]
    simp only [List.append_assoc]
  · refine ⟨("prob.model = ".toList ++ c.name ++ "(".toList) :: c.options.map optionLine ++ [")".toList],
      by rw [if_neg ho], ?_⟩
    have h1 : lstrip ("prob.model = ".toList ++ c.name ++ "(".toList) = _ := lstrip_of_head (by
      rw [e, List.append_assoc, List.append_assoc]; exact head_p _)
    have h2 : lstrip ")".toList = ")".toList := by decide +kernel
    rw [statement_append, ← List.singleton_append, statement_append, statement_options c hc.1]
    simp only [statement, List.map_cons, List.map_nil, List.flatten_cons, List.flatten_nil, h1, h2, List.append_nil]

/-- **C90**, components: the model of the problem is a group to which the class with its options as arguments is added. -/
theorem c90_component {c : ExampleClass} (hc : c.Plain) (hg : "Group".toList ∉ c.mro) (hm : "Component".toList ∈ c.mro) :
    ∃ call, writeSetup c = ("prob = Problem()".toList :: "prob.model = Group()".toList :: call ++
        ["prob.setup(force_alloc_complex=True)".toList, "prob.run_model()".toList], none) ∧
      statement call = "prob.model.add_subsystem('example', ".toList ++ c.name ++ "(".toList ++ arguments c ++
        "))".toList := by
  unfold writeSetup
  rw [if_neg hg, if_pos hm]
  have e : "prob.model.add_subsystem('example', ".toList = "prob.model".toList ++ ".add_subsystem('example', ".toList := by
    decide +kernel
  by_cases ho : c.options = []
  · refine ⟨["prob.model.add_subsystem('example', ".toList ++ c.name ++ "())".toList], by rw [if_pos ho], ?_⟩
    have h1 : lstrip ("prob.model.add_subsystem('example', ".toList ++ c.name ++ "())".toList) = _ :=
      lstrip_of_head (by rw [e, List.append_assoc, List.append_assoc]; exact head_p _)
    have e2 : "())".toList = "(".toList ++ "))".toList := by decide +kernel
    simp only [statement, List.map_cons, List.map_nil, List.flatten_cons, List.flatten_nil, h1, arguments, ho,
      List.flatMap_nil, List.append_nil]
    rw [e2]
    simp only [List.append_assoc]
  · refine ⟨"prob.model.add_subsystem(".toList :: "    'example', ".toList ::
      ("    ".toList ++ c.name ++ "(".toList) :: c.options.map optionLine ++ ["))".toList], by rw [if_neg ho], ?_⟩
    have h1 : lstrip "prob.model.add_subsystem(".toList = "prob.model.add_subsystem(".toList := by decide +kernel
    have h2 : lstrip "    'example', ".toList = "'example', ".toList := by decide +kernel
    have h3 : lstrip ("    ".toList ++ (c.name ++ "(".toList)) = c.name ++ "(".toList := lstrip_spaces hc.2
    have h4 : lstrip "))".toList = "))".toList := by decide +kernel
    have e2 : "prob.model.add_subsystem('example', ".toList = "prob.model.add_subsystem(".toList ++ "'example', ".toList := by
      decide +kernel
    have e3 : ∀ (a b d : Line) (l : List Line), a :: b :: d :: l = [a, b, d] ++ l := fun _ _ _ _ => rfl
    rw [statement_append, e3, statement_append, statement_options c hc.1, e2]
    simp only [statement, List.map_cons, List.map_nil, List.flatten_cons, List.flatten_nil, h1, h2, h3, h4,
      List.append_nil, List.append_assoc]

/-- **C90**, the script of a class that OpenMDAO can run: imports, class, problem, and all variables in order. -/
theorem c90_script (file : List Line) {c : ExampleClass} (hr : Runnable c) :
    ∃ setup gap, writeSetup c = (setup, none) ∧ (∀ l ∈ gap, l = []) ∧
      writeScript file c = ("from openmdao.api import Problem".toList :: gatherImports file ++ [[], []] ++
        scriptSource c.source ++ [[], []] ++ setup ++ gap ++
        c.vars.flatMap fun v => ["print('".toList ++ v ++ "', prob['".toList ++ v ++ "'].shape)".toList,
          "print(prob['".toList ++ v ++ "'])".toList], none) := by
  have h : (writeSetup c).2 = none := by
    unfold writeSetup
    by_cases hg : "Group".toList ∈ c.mro
    · rw [if_pos hg]
    · rw [if_neg hg, if_pos (hr.resolve_left hg)]
  refine ⟨(writeSetup c).1, if c.vars = [] then [] else [[]], Prod.ext rfl h, ?_, ?_⟩
  · intro l hl
    split at hl
    · cases hl
    · exact List.mem_singleton.1 hl
  · simp only [writeScript, h]
    rfl

theorem writeScript_error (file : List Line) (c : ExampleClass) :
    (writeScript file c).2 = none ↔ Runnable c := by
  constructor
  · intro h
    by_contra hn
    have hs : (writeSetup c).2 = some .typeError := by
      unfold writeSetup
      rw [if_neg fun h => hn (.inl h), if_neg fun h => hn (.inr h)]
    simp [writeScript, hs] at h
  · intro hr
    obtain ⟨_, _, _, _, h⟩ := c90_script file hr
    rw [h]

theorem writeScript_typeError (file : List Line) {c : ExampleClass} (hn : ¬ Runnable c) :
    (writeScript file c).2 = some .typeError := by
  have hs : (writeSetup c).2 = some .typeError := by
    unfold writeSetup
    rw [if_neg fun h => hn (.inl h), if_neg fun h => hn (.inr h)]
  simp [writeScript, hs]

/-- **C90** (partial), all classes: if all of them can be run, each one gets its script. -/
theorem c90_all_partial {l : List (List Line × ExampleClass)} (h : ∀ p ∈ l, Runnable p.2) :
    writeScripts l = (l.map fun p => (p.2.name, (writeScript p.1 p.2).1), none) := by
  induction l with
  | nil => rfl
  | cons p l ih =>
    have h1 := (writeScript_error p.1 p.2).2 (h p (by simp))
    have ih := ih fun q hq => h q (by simp [hq])
    obtain ⟨f, c⟩ := p
    simp only [writeScripts, h1, ih, List.map_cons]

/-- The code violates **C90**: at the first class that is neither group nor component it raises TypeError; the script of the class
ends before the model is made, and the classes after it have none. -/
theorem c90_aborts {pre : List (List Line × ExampleClass)} (h : ∀ p ∈ pre, Runnable p.2) (file : List Line)
    {c : ExampleClass} (hn : ¬ Runnable c) (post : List (List Line × ExampleClass)) :
    ∃ part, writeScripts (pre ++ (file, c) :: post) =
        (pre.map (fun p => (p.2.name, (writeScript p.1 p.2).1)) ++ [(c.name, part)], some .typeError) ∧
      part.getLast? = some "prob = Problem()".toList := by
  have hs : writeSetup c = (["prob = Problem()".toList], some .typeError) := by
    unfold writeSetup
    rw [if_neg fun h => hn (.inl h), if_neg fun h => hn (.inr h)]
  refine ⟨(writeScript file c).1, ?_, ?_⟩
  · induction pre with
    | nil =>
      have h1 := writeScript_typeError file hn
      simp only [List.nil_append, writeScripts, h1, List.map_nil]
    | cons p pre ih =>
      have h1 := (writeScript_error p.1 p.2).2 (h p (by simp))
      have ih := ih fun q hq => h q (by simp [hq])
      obtain ⟨f, d⟩ := p
      simp only [List.cons_append, writeScripts, h1, ih, List.map_cons]
  · simp only [writeScript, hs]
    rw [List.getLast?_append]
    simp

/-- A component with one option. -/
example : let c : ExampleClass := ⟨"ExampleA".toList, ["ExampleA".toList, "Component".toList], [], ["y".toList], ["n=1".toList]⟩
    c.Plain ∧ Runnable c ∧ "Group".toList ∉ c.mro ∧
    (writeSetup c).1 = ["prob = Problem()".toList, "prob.model = Group()".toList, "prob.model.add_subsystem(".toList,
      "    'example', ".toList, "    ExampleA(".toList, "    n=1,".toList, "))".toList,
      "prob.setup(force_alloc_complex=True)".toList, "prob.run_model()".toList] := by
  refine ⟨⟨?_, ?_⟩, .inr (by decide +kernel), by decide +kernel, by decide +kernel⟩
  · intro o ho x hx
    rw [List.mem_singleton.1 ho] at hx
    have : x = 'n' := by simpa using hx.symm
    subst this; decide
  · intro x hx
    have : x = 'E' := by simpa using hx.symm
    subst this; decide

/-- A class that cannot be run. -/
example : ¬ Runnable ⟨"ExampleB".toList, ["ExampleB".toList, "object".toList], [], [], []⟩ := by
  unfold Runnable
  decide +kernel

end OM

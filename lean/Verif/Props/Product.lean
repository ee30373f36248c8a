import Verif.Lemmas.Multilinear
import Verif.Model.Product
import Verif.Props.Reduce

/-! # Matrix, outer and dot products (C36, C37, part of C38) -/

namespace OM
open Spec

theorem npRepeat_eq {α : Type} (l : List α) (k : Nat) :
    npRepeat l k = l.flatMap fun a => (List.range k).map fun _ => a := by
  simp [npRepeat]

theorem npTile_eq {α : Type} (l : List α) (k : Nat) :
    npTile l k = (List.range k).flatMap fun _ => l := by
  unfold npTile
  induction k with
  | zero => rfl
  | succ k ih => rw [List.replicate_succ', List.flatten_append, ih, List.range_succ, List.flatMap_append]; simp

/-- Positions of a matrix, in row-major order. -/
def pairs (M N : Nat) : List (Nat × Nat) :=
  (List.range M).flatMap fun i => (List.range N).map fun j => (i, j)

theorem mem_pairs {M N : Nat} {t : Nat × Nat} : t ∈ pairs M N ↔ t.1 < M ∧ t.2 < N := by
  obtain ⟨a, b⟩ := t
  simp [pairs]

theorem map_pairs {α : Type} (M N : Nat) (f : Nat → Nat → α) :
    (pairs M N).map (fun t => f t.1 t.2) =
      (List.range M).flatMap fun i => (List.range N).map fun j => f i j := by
  simp [pairs, List.map_flatMap, Function.comp_def]

theorem range_pairs (M N : Nat) : List.range (M * N) = (pairs M N).map fun t => t.1 * N + t.2 := by
  rw [range_mul, map_pairs M N fun i j => i * N + j]

theorem npFlat_pairs {α : Type} (M N : Nat) (f : Nat → α) :
    npFlat (M * N) f = (pairs M N).map fun t => f (t.1 * N + t.2) := by
  rw [npFlat, range_pairs, List.map_map]; rfl

theorem npRepeat_pairs {α : Type} (M N : Nat) (f : Nat → α) :
    npRepeat ((List.range M).map f) N = (pairs M N).map fun t => f t.1 := by
  rw [npRepeat_eq, map_pairs M N fun i _ => f i, List.flatMap_map]

theorem npTile_pairs {α : Type} (M N : Nat) (f : Nat → α) :
    npTile ((List.range N).map f) M = (pairs M N).map fun t => f t.2 := by
  rw [npTile_eq, map_pairs M N fun _ j => f j]

theorem filter_pairs {M N i : Nat} (hi : i < M) (g : Nat → Nat → ℝ) :
    (((pairs M N).filter fun t => t.1 = i).map fun t => g t.1 t.2).sum =
      ((List.range N).map fun j => g i j).sum := by
  have : (pairs M N).filter (fun t => t.1 = i) = (List.range N).map fun j => (i, j) := by
    unfold pairs
    rw [List.filter_flatMap]
    have h : ∀ a, List.filter (fun t : Nat × Nat => decide (t.1 = i)) ((List.range N).map fun j => (a, j)) =
        if a = i then (List.range N).map fun j => (i, j) else [] := by
      intro a
      by_cases h : a = i
      · subst h
        rw [if_pos rfl, List.filter_eq_self]
        intro t ht
        obtain ⟨j, _, rfl⟩ := List.mem_map.1 ht
        simp
      · rw [if_neg h, List.filter_eq_nil_iff]
        intro t ht
        obtain ⟨j, _, rfl⟩ := List.mem_map.1 ht
        simpa using h
    simp only [h]
    clear h
    induction M with
    | zero => omega
    | succ M ih =>
      rw [List.range_succ, List.flatMap_append]
      by_cases hM : i = M
      · subst hM
        have : ((List.range i).flatMap fun a => if a = i then (List.range N).map fun j => (i, j) else []) = [] := by
          rw [List.flatMap_eq_nil_iff]
          intro a ha
          have := List.mem_range.1 ha
          rw [if_neg (by omega)]
        rw [this]; simp
      · rw [ih (by omega)]
        have : M ≠ i := fun h => hM h.symm
        simp [this]
  rw [this, List.map_map]; rfl

/-- A dense matrix applied to a vector. -/
theorem denseCoo_apply {M N : Nat} (f y : Nat → ℝ) {i : Nat} (hi : i < M) :
    (denseCoo M N f).apply y i = ((List.range N).map fun j => f (i * N + j) * y j).sum := by
  have e0 : npRepeat (List.range M) N = (pairs M N).map fun t => t.1 := by
    simpa using npRepeat_pairs M N id
  have e1 : npTile (List.range N) M = (pairs M N).map fun t => t.2 := by
    simpa using npTile_pairs M N id
  rw [Coo.apply, denseCoo, e0, e1, npFlat_pairs, cooApply_map]
  exact filter_pairs hi fun i j => f (i * N + j) * y j

theorem denseCoo_cols {M N : Nat} (f : Nat → ℝ) : ∀ c ∈ (denseCoo M N f).cols, c < N := by
  intro c hc
  simp only [denseCoo, npTile_eq, List.mem_flatMap, List.mem_range] at hc
  obtain ⟨_, _, h⟩ := hc; exact h

theorem denseCoo_rows {M N : Nat} (f : Nat → ℝ) : ∀ r ∈ (denseCoo M N f).rows, r < M := by
  intro c hc
  simp only [denseCoo, npRepeat_eq, List.mem_flatMap, List.mem_map, List.mem_range] at hc
  obtain ⟨_, h, _, _, rfl⟩ := hc; exact h

/-! ## Matrix products -/

theorem filter_triples {m p n : Nat} (g : Nat → Nat → Nat → ℝ) {r : Nat} (hr : r < m * p) :
    (((pairs (m * p) n).filter fun t => t.1 = r).map fun t => g (t.1 / p) (t.1 % p) t.2).sum =
      ((List.range n).map fun k => g (r / p) (r % p) k).sum :=
  filter_pairs hr fun a k => g (a / p) (a % p) k

theorem npTileMat_pairs {α : Type} (m n p : Nat) (f : Nat → α) :
    npTileMat m n f p = (pairs (m * p) n).map fun t => f (t.1 / p * n + t.2) := by
  unfold npTileMat
  rw [map_pairs (m * p) n fun a k => f (a / p * n + k), range_mul, List.flatMap_assoc]
  apply List.flatMap_congr
  intro i hi
  rw [npTile_eq, List.flatMap_map]
  apply List.flatMap_congr
  intro j hj
  have hj := List.mem_range.1 hj
  have hp : 0 < p := by omega
  rw [show (i * p + j) / p = i by rw [Nat.mul_comm, Nat.mul_add_div hp, Nat.div_eq_of_lt hj]; rfl]

theorem npFlatT_tile {α : Type} (m n p : Nat) (f : Nat → α) :
    npTile (npFlatT n p f) m = (pairs (m * p) n).map fun t => f (t.2 * p + t.1 % p) := by
  rw [npTile_eq, map_pairs (m * p) n fun a k => f (k * p + a % p), range_mul, List.flatMap_assoc]
  apply List.flatMap_congr
  intro i hi
  rw [npFlatT, List.flatMap_map]
  apply List.flatMap_congr
  intro j hj
  have hj := List.mem_range.1 hj
  rw [show (i * p + j) % p = j by
    rw [Nat.mul_comm, Nat.mul_add_mod, Nat.mod_eq_of_lt hj]]

theorem MatMat.size_comp (c : MatMat) : prodShape c.compShape = c.m * c.p := by
  unfold MatMat.compShape
  by_cases h : c.p = 1
  · simp [h, prodShape]
  · simp [h, prodShape]

theorem setup2_ok {a b : String} (h : setup2 a b = .ok ()) : a ≠ b := by
  intro e
  rw [setup2, if_pos e] at h
  cases h

theorem matmat_exact {c : MatMat} (hne : c.n0 ≠ c.n1) (inp : String → Nat → ℝ) :
    ExactPartials c.ins (c.m * c.p) c.compute (c.partials inp) inp := by
  have e0 : npRepeat (List.range (prodShape c.compShape)) c.n = (pairs (c.m * c.p) c.n).map fun t => t.1 := by
    rw [c.size_comp]
    simpa using npRepeat_pairs (c.m * c.p) c.n id
  refine bilinear_coo hne (pairs (c.m * c.p) c.n) (fun t => t.1) (fun t => t.1 / c.p * c.n + t.2)
    (fun t => t.2 * c.p + t.1 % c.p) (fun _ => 1) ?_ ?_ ?_ ?_ ?_ ?_
  · intro t ht; exact (mem_pairs.1 ht).1
  · intro t ht
    obtain ⟨h1, h2⟩ := mem_pairs.1 ht
    have : t.1 / c.p < c.m := Nat.div_lt_of_lt_mul (by rw [Nat.mul_comm]; exact h1)
    calc t.1 / c.p * c.n + t.2 < (t.1 / c.p + 1) * c.n := by rw [Nat.add_mul]; omega
      _ ≤ c.m * c.n := Nat.mul_le_mul_right _ this
  · intro t ht
    obtain ⟨h1, h2⟩ := mem_pairs.1 ht
    have hp : 0 < c.p := by
      rcases Nat.eq_zero_or_pos c.p with h | h
      · rw [h, Nat.mul_zero] at h1; omega
      · exact h
    have := Nat.mod_lt t.1 hp
    calc t.2 * c.p + t.1 % c.p < (t.2 + 1) * c.p := by rw [Nat.add_mul]; omega
      _ ≤ c.n * c.p := Nat.mul_le_mul_right _ h2
  · intro inp i hi
    rw [filter_triples (fun a b k => 1 * (inp c.n0 (a * c.n + k) * inp c.n1 (k * c.p + b))) hi]
    simp [MatMat.compute, npMatmul]
  · rw [MatMat.partials, if_pos rfl, e0, npTileMat_pairs, npFlatT_tile]
    simp
  · rw [MatMat.partials, if_neg hne.symm, e0, npTileMat_pairs, npFlatT_tile]
    simp

theorem npMatmul_apply {m n p : Nat} (a b : Nat → ℝ) {i j : Nat} (hj : j < p) :
    npMatmul n p a b (ravel [m, p] [i, j]) =
      ∑ k ∈ Finset.range n, a (ravel [m, n] [i, k]) * b (ravel [n, p] [k, j]) := by
  have hp : 0 < p := by omega
  have e1 : ravel [m, p] [i, j] = i * p + j := by simp [ravel, prodShape]
  rw [e1, npMatmul, sum_map_range]
  apply Finset.sum_congr rfl
  intro k _
  rw [show (i * p + j) / p = i by rw [Nat.mul_comm, Nat.mul_add_div hp, Nat.div_eq_of_lt hj]; rfl,
    show (i * p + j) % p = j by rw [Nat.mul_comm, Nat.mul_add_mod, Nat.mod_eq_of_lt hj]]
  simp [ravel, prodShape]

theorem ravel_zeros (s : List Nat) : ravel s (List.replicate s.length 0) = 0 := by
  induction s with
  | nil => rfl
  | cons n s ih => simp [ravel, List.replicate_succ, ih]

/-- The first operand of a matrix product: a matrix, or an array with more axes all of which but the first have length
one. -/
def Spec.MatrixLike (shape : List Nat) (m n : Nat) : Prop :=
  shape = [m, n] ∨ n = 1 ∧ ∃ r, shape = m :: List.replicate (r + 2) 1

/-- Position `(i, k)` in the first operand of a matrix product. -/
def Spec.matrixPos (shape : List Nat) (i k : Nat) : Nat := ravel shape (i :: k :: List.replicate (shape.length - 2) 0)

theorem matrixLike_of {m n : Nat} {rest : List Nat} (h : ¬ (rest ≠ [] ∧ (prodShape rest ≠ 1 ∨ n ≠ 1))) :
    Spec.MatrixLike (m :: n :: rest) m n ∧ prodShape rest = 1 := by
  by_cases hr : rest = []
  · subst hr
    exact ⟨.inl rfl, rfl⟩
  · have h1 : prodShape rest = 1 ∧ n = 1 := by
      constructor
      · by_contra h2; exact h ⟨hr, .inl h2⟩
      · by_contra h2; exact h ⟨hr, .inr h2⟩
    obtain ⟨h1, rfl⟩ := h1
    refine ⟨.inr ⟨rfl, rest.length - 1, ?_⟩, h1⟩
    have hlen : rest.length - 1 + 2 = rest.length + 1 := by
      have := List.length_pos_iff.2 hr; omega
    rw [hlen, List.replicate_succ]
    congr 2
    refine List.eq_replicate_iff.2 ⟨rfl, fun x hx => ?_⟩
    have := List.dvd_prod hx
    unfold prodShape at h1
    rw [h1] at this
    exact Nat.dvd_one.1 this

theorem rest_of_matrixLike {m n a b : Nat} {rest : List Nat} (h : Spec.MatrixLike (a :: b :: rest) m n) :
    a = m ∧ b = n ∧ ¬ (rest ≠ [] ∧ (prodShape rest ≠ 1 ∨ n ≠ 1)) := by
  rcases h with h | ⟨rfl, r, h⟩
  · cases h
    exact ⟨rfl, rfl, fun h => h.1 rfl⟩
  · rw [List.replicate_succ] at h
    cases h
    refine ⟨rfl, rfl, ?_⟩
    rintro ⟨-, h | h⟩
    · exact h (by simp [prodShape])
    · exact h rfl

theorem matrixPos_eq {m n : Nat} {rest : List Nat} (h : prodShape rest = 1) (i k : Nat) :
    Spec.matrixPos (m :: n :: rest) i k = ravel [m, n] [i, k] := by
  have := ravel_zeros rest
  have h' : rest.prod = 1 := h
  simp [Spec.matrixPos, ravel, prodShape, h', this]

/-- **C36**, `matmat`: the product of an `m × n` matrix and an `n × p` matrix or a vector of length `n`
(then `p = 1`), and the exact Jacobian; other shapes are refused. -/
theorem c36_matmat {n0 n1 : String} {shape1 shape2 : List Nat} {c : MatMat}
    (ho : stdMatmat n0 shape1 n1 shape2 = .ok c) (hs : c.setup = .ok ()) (inp : String → Nat → ℝ) :
    (∃ m n p, Spec.MatrixLike shape1 m n ∧ (shape2 = [n, p] ∨ shape2 = [n] ∧ p = 1) ∧ c.outShape = [m, p] ∧
      prodShape c.compShape = prodShape c.outShape ∧
      ∀ i < m, ∀ j < p, c.compute inp (ravel [m, p] [i, j]) =
        ∑ k ∈ Finset.range n, inp n0 (Spec.matrixPos shape1 i k) * inp n1 (ravel [n, p] [k, j])) ∧
    ExactPartials c.ins (prodShape c.outShape) c.compute (c.partials inp) inp := by
  have hne := setup2_ok hs
  refine ⟨?_, ?_⟩
  · unfold stdMatmat at ho
    split at ho
    · rename_i m n rest n' l
      split at ho
      · cases ho
      · rename_i h1
        split at ho
        · cases ho
        · rename_i h2
          obtain ⟨h3, h4⟩ := matrixLike_of h2 (m := m)
          push Not at h1
          obtain ⟨rfl, h1⟩ := h1
          obtain rfl := Except.ok.inj ho
          refine ⟨m, n, l.headD 1, h3, ?_, rfl, ?_, ?_⟩
          · rcases l with _ | ⟨p, _ | ⟨q, l⟩⟩
            · exact .inr ⟨rfl, rfl⟩
            · exact .inl rfl
            · simp at h1
          · rw [MatMat.size_comp]; simp [MatMat.outShape, prodShape]
          · intro i _ j hj
            simp only [matrixPos_eq h4]
            exact npMatmul_apply _ _ hj
    · cases ho
  · have := matmat_exact hne inp
    rwa [show prodShape c.outShape = c.m * c.p by simp [MatMat.outShape, prodShape]]

/-- Operands whose inner sizes differ are refused, and so is a second operand of rank above 2. -/
theorem c36_refused (n0 n1 : String) (m n : Nat) (rest shape2 : List Nat)
    (h : shape2.head? ≠ some n ∨ 2 < shape2.length) :
    (∃ e, stdMatmat n0 (m :: n :: rest) n1 shape2 = .error e) ∧
    ∃ e, stdMatvec n0 (m :: n :: rest) n1 shape2 = .error e := by
  rcases shape2 with _ | ⟨n', l⟩
  · exact ⟨⟨_, rfl⟩, ⟨_, rfl⟩⟩
  · have : n ≠ n' ∨ 2 ≤ l.length := by
      rcases h with h | h
      · simp at h; exact .inl fun e => h e.symm
      · simp at h; exact .inr (by omega)
    refine ⟨⟨.exception, if_pos this⟩, ⟨.exception, if_pos (this.imp id fun h => by omega)⟩⟩

theorem matvec_exact {c : MatVec} (hne : c.n0 ≠ c.n1) (inp : String → Nat → ℝ) :
    ExactPartials c.ins c.m c.compute (c.partials inp) inp := by
  have e0 : npRepeat (List.range c.m) c.n = (pairs c.m c.n).map fun t => t.1 := by
    simpa using npRepeat_pairs c.m c.n id
  have hp0 : c.partials inp c.n0 = ⟨(pairs c.m c.n).map fun t => t.1,
      (pairs c.m c.n).map fun t => t.1 * c.n + t.2, (pairs c.m c.n).map fun t => inp c.n1 t.2⟩ := by
    rw [MatVec.partials, if_pos rfl, e0, range_pairs, npFlat, npTile_pairs]
  have hp1 : c.partials inp c.n1 = denseCoo c.m c.n (inp c.n0) := by
    rw [MatVec.partials, if_neg hne.symm]
  have hlt : ∀ t ∈ pairs c.m c.n, t.1 * c.n + t.2 < c.m * c.n := by
    intro t ht
    obtain ⟨h1, h2⟩ := mem_pairs.1 ht
    calc t.1 * c.n + t.2 < (t.1 + 1) * c.n := by rw [Nat.add_mul]; omega
      _ ≤ c.m * c.n := Nat.mul_le_mul_right _ h1
  refine bilinear_exact hne (pairs c.m c.n) (fun t => t.1) (fun t => t.1 * c.n + t.2)
    (fun t => t.2) (fun _ => 1) hlt ?_ ?_ ?_ ?_ ?_ ?_ ?_ ?_
  · intro t ht; exact (mem_pairs.1 ht).2
  · rw [hp0]; intro x hx
    obtain ⟨t, ht, rfl⟩ := List.mem_map.1 hx
    exact hlt t ht
  · rw [hp1]; exact denseCoo_cols _
  · rw [hp0]; intro x hx
    obtain ⟨t, ht, rfl⟩ := List.mem_map.1 hx
    exact (mem_pairs.1 ht).1
  · rw [hp1]; exact denseCoo_rows _
  · intro inp i hi
    rw [filter_pairs hi fun a k => 1 * (inp c.n0 (a * c.n + k) * inp c.n1 k)]
    simp [MatVec.compute, npMatmul, Nat.mod_one]
  · intro y i hi
    rw [hp0, Coo.apply, cooApply_map]
    simp
  · intro y i hi
    rw [hp1, denseCoo_apply _ _ hi, filter_pairs hi fun a k => 1 * inp c.n0 (a * c.n + k) * y k]
    simp

/-- **C36**, `matvec`. -/
theorem c36_matvec {n0 n1 : String} {shape1 shape2 : List Nat} {c : MatVec}
    (ho : stdMatvec n0 shape1 n1 shape2 = .ok c) (hs : c.setup = .ok ()) (inp : String → Nat → ℝ) :
    ∃ m n, Spec.MatrixLike shape1 m n ∧ shape2 = [n] ∧ c.outShape = [m] ∧
    (∀ i < m, c.compute inp i = ∑ k ∈ Finset.range n, inp n0 (Spec.matrixPos shape1 i k) * inp n1 k) ∧
    ExactPartials c.ins (prodShape c.outShape) c.compute (c.partials inp) inp := by
  have hne := setup2_ok hs
  have hex := matvec_exact hne inp
  unfold stdMatvec at ho
  split at ho
  · rename_i m n rest n' l
    split at ho
    · cases ho
    · rename_i h1
      split at ho
      · cases ho
      · rename_i h2
        obtain ⟨h3, h4⟩ := matrixLike_of h2 (m := m)
        push Not at h1
        obtain ⟨rfl, h1⟩ := h1
        obtain rfl : l = [] := List.length_eq_zero_iff.1 (by omega)
        obtain rfl := Except.ok.inj ho
        refine ⟨m, n, h3, rfl, rfl, ?_, ?_⟩
        · intro i _
          simp only [matrixPos_eq h4]
          simp only [MatVec.compute, npMatmul, sum_map_range, Nat.div_one, Nat.mod_one, Nat.mul_one,
            Nat.add_zero, ravel, prodShape, List.prod_cons, List.prod_nil]
        · simpa [MatVec.outShape, prodShape] using hex
  · cases ho

theorem setup2_iff {a b : String} : setup2 a b = .ok () ↔ a ≠ b := by
  unfold setup2
  split <;> simp_all

/-- **C36**, which operands are accepted and set up: a matrix and a matrix or vector whose first axis is as long
as the second axis of the first operand. A first operand of more axes is accepted only if all of them but the first have
length one. -/
theorem c36_accepted (n0 n1 : String) (shape1 shape2 : List Nat) :
    ((∃ c, stdMatmat n0 shape1 n1 shape2 = .ok c ∧ c.setup = .ok ()) ↔
      n0 ≠ n1 ∧ ∃ m n, Spec.MatrixLike shape1 m n ∧ (shape2 = [n] ∨ ∃ p, shape2 = [n, p])) ∧
    ((∃ c, stdMatvec n0 shape1 n1 shape2 = .ok c ∧ c.setup = .ok ()) ↔
      n0 ≠ n1 ∧ ∃ m n, Spec.MatrixLike shape1 m n ∧ shape2 = [n]) := by
  have hform : ∀ {m n}, Spec.MatrixLike shape1 m n → ∃ rest, shape1 = m :: n :: rest := by
    rintro m n (h | ⟨rfl, r, h⟩)
    · exact ⟨[], h⟩
    · exact ⟨_, h⟩
  constructor
  · constructor
    · rintro ⟨c, h, hs⟩
      obtain ⟨⟨m, n, p, h1, h2, -⟩, -⟩ := c36_matmat h hs fun _ _ => 0
      have hn : n0 ≠ n1 := by
        have hs' : c.n0 ≠ c.n1 := setup2_iff.1 hs
        unfold stdMatmat at h
        split at h
        · split at h
          · cases h
          · split at h
            · cases h
            · cases h; exact hs'
        · cases h
      refine ⟨hn, m, n, h1, ?_⟩
      rcases h2 with h2 | ⟨h2, -⟩
      · exact .inr ⟨p, h2⟩
      · exact .inl h2
    · rintro ⟨hne, m, n, hm, h2⟩
      obtain ⟨rest, rfl⟩ := hform hm
      obtain ⟨-, -, hr⟩ := rest_of_matrixLike hm
      have : ∃ l : List Nat, shape2 = n :: l ∧ l.length < 2 := by
        rcases h2 with rfl | ⟨p, rfl⟩
        · exact ⟨[], rfl, by simp⟩
        · exact ⟨[p], rfl, by simp⟩
      obtain ⟨l, rfl, hl⟩ := this
      refine ⟨⟨n0, n1, m, n, l.headD 1⟩, ?_, setup2_iff.2 hne⟩
      simp only [stdMatmat]
      rw [if_neg (by simpa using hl), if_neg hr]
  · constructor
    · rintro ⟨c, h, hs⟩
      obtain ⟨m, n, h1, h2, -⟩ := c36_matvec h hs fun _ _ => 0
      have hn : n0 ≠ n1 := by
        have hs' : c.n0 ≠ c.n1 := setup2_iff.1 hs
        unfold stdMatvec at h
        split at h
        · split at h
          · cases h
          · split at h
            · cases h
            · cases h; exact hs'
        · cases h
      exact ⟨hn, m, n, h1, h2⟩
    · rintro ⟨hne, m, n, hm, rfl⟩
      obtain ⟨rest, rfl⟩ := hform hm
      obtain ⟨-, -, hr⟩ := rest_of_matrixLike hm
      refine ⟨⟨n0, n1, m, n⟩, ?_, setup2_iff.2 hne⟩
      simp only [stdMatvec]
      rw [if_neg (by simp), if_neg hr]

/-- A product of an expression with itself is refused when the model is set up. -/
theorem c36_same_operand (n0 : String) (n : Nat) :
    (∃ c, stdMatmat n0 [n, n] n0 [n, n] = .ok c ∧ c.setup = .error .valueError) :=
  ⟨⟨n0, n0, n, n, n⟩, by simp [stdMatmat], by simp [MatMat.setup, setup2]⟩

/-- An array of shape `(2, 1, 1)` is accepted as if it were a matrix, one of shape `(2, 3, 4)` is not. -/
example : (∃ c, stdMatmat "a" [2, 1, 1] "b" [1, 4] = .ok c ∧ c.setup = .ok ()) ∧
    stdMatmat "a" [2, 3, 4] "b" [3, 4] = .error .valueError := ⟨⟨_, rfl, rfl⟩, rfl⟩

example : ∃ c, stdMatmat "a" [2, 3] "b" [3, 4] = .ok c ∧ c.setup = .ok () ∧
    c.partials (fun s k => if s = "a" then k else 10 * k) "a" ≠ ⟨[], [], []⟩ :=
  ⟨⟨"a", "b", 2, 3, 4⟩, rfl, rfl, by
    simp [MatMat.partials, npRepeat, MatMat.compShape, prodShape, List.range_succ]⟩

example : ∃ c, stdMatvec "a" [2, 3] "b" [3] = .ok c ∧ c.setup = .ok () :=
  ⟨⟨"a", "b", 2, 3⟩, rfl, rfl⟩

example : ∃ e, stdMatmat "a" [2, 3] "b" [2, 3] = .error e := ⟨.exception, rfl⟩

/-! ## Outer products -/

theorem prodShape_append (s t : List Nat) : prodShape (s ++ t) = prodShape s * prodShape t := by
  simp [prodShape]

theorem outer_exact {c : Outer} (hne : c.n0 ≠ c.n1) (inp : String → Nat → ℝ) :
    ExactPartials c.ins (prodShape c.outShape) c.compute (c.partials inp) inp := by
  have hsz : prodShape c.outShape = c.size0 * c.size1 := prodShape_append _ _
  have hlt : ∀ t ∈ pairs c.size0 c.size1, t.1 * c.size1 + t.2 < c.size0 * c.size1 := by
    intro t ht
    obtain ⟨h1, h2⟩ := mem_pairs.1 ht
    calc t.1 * c.size1 + t.2 < (t.1 + 1) * c.size1 := by rw [Nat.add_mul]; omega
      _ ≤ c.size0 * c.size1 := Nat.mul_le_mul_right _ h1
  refine bilinear_coo hne (pairs c.size0 c.size1) (fun t => t.1 * c.size1 + t.2) (fun t => t.1)
    (fun t => t.2) (fun _ => 1) ?_ ?_ ?_ ?_ ?_ ?_
  · rw [hsz]; exact hlt
  · intro t ht; exact (mem_pairs.1 ht).1
  · intro t ht; exact (mem_pairs.1 ht).2
  · intro inp i hi
    have hlt1 : 0 < c.size1 := by
      rcases Nat.eq_zero_or_pos c.size1 with h | h
      · rw [hsz, h, Nat.mul_zero] at hi; omega
      · exact h
    have hd : i / c.size1 < c.size0 := Nat.div_lt_of_lt_mul (by rw [Nat.mul_comm]; omega)
    have hm := Nat.mod_lt i hlt1
    have : (pairs c.size0 c.size1).filter (fun t => t.1 * c.size1 + t.2 = i) =
        [(i / c.size1, i % c.size1)] := by
      have h1 : (pairs c.size0 c.size1).filter (fun t => t.1 * c.size1 + t.2 = i) =
          (pairs c.size0 c.size1).filter (fun t => t = (i / c.size1, i % c.size1)) := by
        apply List.filter_congr
        intro t ht
        obtain ⟨h1, h2⟩ := mem_pairs.1 ht
        apply decide_eq_decide.2
        constructor
        · rintro rfl
          rw [Nat.mul_comm, Nat.mul_add_div hlt1, Nat.div_eq_of_lt h2, Nat.mul_add_mod, Nat.mod_eq_of_lt h2]
          simp
        · rintro rfl
          exact Nat.div_add_mod' i c.size1
      have hnd : (pairs c.size0 c.size1).Nodup := by
        have := List.nodup_range (n := c.size0 * c.size1)
        rw [range_pairs] at this
        exact List.Nodup.of_map _ this
      rw [h1]
      have hmem : (i / c.size1, i % c.size1) ∈ pairs c.size0 c.size1 := mem_pairs.2 ⟨hd, hm⟩
      have h2 := List.Nodup.count hnd (a := (i / c.size1, i % c.size1))
      rw [if_pos hmem] at h2
      have h3 := List.filter_beq (l := pairs c.size0 c.size1) (i / c.size1, i % c.size1)
      rw [h2] at h3
      have h4 : (pairs c.size0 c.size1).filter (fun t => t = (i / c.size1, i % c.size1)) =
          (pairs c.size0 c.size1).filter (fun t => t == (i / c.size1, i % c.size1)) := by
        apply List.filter_congr; intro t _
        rw [Bool.eq_iff_iff, decide_eq_true_iff, beq_iff_eq]
      rw [h4, h3]; rfl
    rw [this]
    simp [Outer.compute]
  · rw [Outer.partials, if_pos rfl, hsz, range_pairs, npFlat, npTile_pairs]
    have e0 : npRepeat (List.range c.size0) c.size1 = (pairs c.size0 c.size1).map fun t => t.1 := by
      simpa using npRepeat_pairs c.size0 c.size1 id
    rw [e0]; simp
  · rw [Outer.partials, if_neg hne.symm, hsz, range_pairs, npFlat, npRepeat_pairs]
    have e0 : npTile (List.range c.size1) c.size0 = (pairs c.size0 c.size1).map fun t => t.2 := by
      simpa using npTile_pairs c.size0 c.size1 id
    rw [e0]; simp

theorem ravel_append {s t i j : List Nat} (hi : InBounds s i) :
    ravel (s ++ t) (i ++ j) = ravel s i * prodShape t + ravel t j := by
  induction hi with
  | nil => simp [ravel]
  | cons h _ ih =>
    simp only [List.cons_append, ravel, ih, prodShape_append]
    ring

/-- **C37**: entry `(i, j)` of the outer product is the product of entry `i` and entry `j`; the Jacobian
is exact. -/
theorem c37_outer {n0 n1 : String} {s t : List Nat} {c : Outer} (ho : stdOuter n0 s n1 t = .ok c)
    (hs : c.setup = .ok ()) (inp : String → Nat → ℝ) :
    c.outShape = s ++ t ∧
    (∀ i j, InBounds s i → InBounds t j →
      c.compute inp (ravel c.outShape (i ++ j)) = inp n0 (ravel s i) * inp n1 (ravel t j)) ∧
    ExactPartials c.ins (prodShape c.outShape) c.compute (c.partials inp) inp := by
  have hex := outer_exact (setup2_ok hs) inp
  unfold stdOuter at ho
  split at ho
  · obtain rfl := Except.ok.inj ho
    refine ⟨rfl, ?_, hex⟩
    intro i j hi hj
    have h1 := ravel_lt hj
    have h0 : 0 < prodShape t := by omega
    simp only [Outer.outShape, Outer.compute, Outer.size1]
    rw [ravel_append hi, Nat.mul_comm, Nat.mul_add_div h0, Nat.div_eq_of_lt h1, Nat.mul_add_mod,
      Nat.mod_eq_of_lt h1, Nat.add_zero]
  · cases ho

/-- **C37**, which operands are accepted and set up: different ones with at most 26 axes together. -/
theorem c37_accepted (n0 n1 : String) (s t : List Nat) :
    (∃ c, stdOuter n0 s n1 t = .ok c ∧ c.setup = .ok ()) ↔ n0 ≠ n1 ∧ s.length + t.length ≤ 26 := by
  unfold stdOuter
  constructor
  · rintro ⟨c, h, hs⟩
    split at h
    · cases h; exact ⟨setup2_iff.1 hs, by assumption⟩
    · cases h
  · rintro ⟨hne, hl⟩
    exact ⟨_, if_pos hl, setup2_iff.2 hne⟩

example : ∃ c, stdOuter "a" [2, 3] "b" [4] = .ok c ∧ c.setup = .ok () :=
  ⟨⟨"a", "b", [2, 3], [4]⟩, rfl, rfl⟩

/-! ## Inner product of vectors, dot product -/

theorem vecInner_exact {c : VecInner} (hne : c.n0 ≠ c.n1) (inp : String → Nat → ℝ) :
    ExactPartials c.ins 1 c.compute (c.partials inp) inp := by
  have hfil : ((List.range c.n).filter fun _ => (0 : Nat) = 0) = List.range c.n := by simp
  refine bilinear_exact hne (List.range c.n) (fun _ => 0) id id (fun _ => 1) ?_ ?_ ?_ ?_ ?_ ?_ ?_ ?_ ?_
  · intro t ht; exact List.mem_range.1 ht
  · intro t ht; exact List.mem_range.1 ht
  · exact denseCoo_cols _
  · exact denseCoo_cols _
  · exact denseCoo_rows _
  · exact denseCoo_rows _
  · intro inp i hi
    obtain rfl : i = 0 := by omega
    rw [hfil]
    simp [VecInner.compute]
  · intro y i hi
    obtain rfl : i = 0 := by omega
    rw [hfil, VecInner.partials, denseCoo_apply _ _ hi, if_pos rfl]
    simp
  · intro y i hi
    obtain rfl : i = 0 := by omega
    rw [hfil, VecInner.partials, denseCoo_apply _ _ hi, if_neg hne.symm]
    simp

theorem tensorDot_exact {c : TensorDot} (hne : c.n0 ≠ c.n1) (inp : String → Nat → ℝ) :
    ExactPartials c.ins (prodShape c.outShape) c.compute (c.partials inp) inp := by
  refine bilinear_coo hne (List.range c.size) (redRow c.shape [c.axis]) id id (fun _ => 1) ?_ ?_ ?_ ?_ ?_ ?_
  · intro t ht; exact redRow_lt (List.mem_range.1 ht)
  · intro t ht; exact List.mem_range.1 ht
  · intro t ht; exact List.mem_range.1 ht
  · intro inp i _
    simp [TensorDot.compute, npSum, redGroup, TensorDot.size]
  · simp [TensorDot.partials, npFlat]
  · simp [TensorDot.partials, npFlat, hne.symm]

/-- **C38**, `dot`: of two vectors the sum of the products; of two tensors of the same shape the sum of
the products along an axis of length 3. Exact Jacobians. -/
theorem c38_dot {n0 n1 : String} {s t : List Nat} {axis : Option Int} :
    (∀ c, stdDot n0 s n1 t axis = .ok (.inl c) → c.setup = .ok () → ∀ inp,
      (∃ n, s = [n] ∧ t = [n] ∧ c.compute inp 0 = ∑ k ∈ Finset.range n, inp n0 k * inp n1 k) ∧
      ExactPartials c.ins 1 c.compute (c.partials inp) inp) ∧
    (∀ c, stdDot n0 s n1 t axis = .ok (.inr c) → c.setup = .ok () → ∀ inp,
      (∃ a ax, axis = some a ∧ NamesAxis s.length a ax ∧ t = s ∧ s[ax]? = some 3 ∧
        c.outShape = npDelete [ax] s ∧
        ∀ j, InBounds (npDelete [ax] s) j → c.compute inp (ravel (npDelete [ax] s) j) =
          (fibreValues s [ax] (fun k => inp n0 k * inp n1 k) j).sum) ∧
      ExactPartials c.ins (prodShape c.outShape) c.compute (c.partials inp) inp) := by
  have hcase : ∀ o, stdDot n0 s n1 t axis = .ok o → s = t ∧
      ((∃ n, s = [n] ∧ o = .inl ⟨n0, n1, n⟩) ∨
        ∃ a ax, axis = some a ∧ normAxis s.length a = some ax ∧ s.getD ax 0 = 3 ∧
          o = .inr ⟨n0, n1, s, ax⟩) := by
    intro o h
    unfold stdDot at h
    split at h
    · cases h
    · rename_i hst
      refine ⟨by simpa using hst, ?_⟩
      split at h
      · exact .inl ⟨_, rfl, (Except.ok.inj h).symm⟩
      · split at h
        · cases h
        · split at h
          · cases h
          · rename_i ax hax
            split at h
            · cases h
            · rename_i h3
              exact .inr ⟨_, _, rfl, hax, by simpa using h3, (Except.ok.inj h).symm⟩
  constructor
  · intro c ho hs inp
    obtain ⟨rfl, ⟨n, rfl, he⟩ | ⟨a, ax, _, _, _, he⟩⟩ := hcase _ ho
    · obtain rfl := Sum.inl.inj he
      refine ⟨⟨n, rfl, rfl, ?_⟩, vecInner_exact (setup2_ok hs) inp⟩
      simp [VecInner.compute, sum_map_range]
    · cases he
  · intro c ho hs inp
    obtain ⟨rfl, ⟨n, rfl, he⟩ | ⟨a, ax, rfl, hax, h3, he⟩⟩ := hcase _ ho
    · cases he
    · obtain rfl := Sum.inr.inj he
      refine ⟨⟨a, ax, rfl, normAxis_iff.1 hax, rfl, ?_, rfl, ?_⟩, tensorDot_exact (setup2_ok hs) inp⟩
      · rw [List.getD_eq_getElem?_getD] at h3
        cases h : s[ax]? with
        | none => rw [h] at h3; simp at h3
        | some v => rw [h] at h3; simp at h3; rw [h3]
      · intro j hj
        simp only [TensorDot.compute, npSum]
        rw [map_redGroup hj]

/-- **C38**, which operands `dot` accepts and sets up: different vectors of the same length; different tensors of
the same shape along an axis of length 3, counted from the front or from the end. -/
theorem c38_dot_accepted (n0 n1 : String) (s t : List Nat) (axis : Option Int) :
    ((∃ c, stdDot n0 s n1 t axis = .ok (.inl c) ∧ c.setup = .ok ()) ↔ n0 ≠ n1 ∧ s = t ∧ s.length = 1) ∧
    ((∃ c, stdDot n0 s n1 t axis = .ok (.inr c) ∧ c.setup = .ok ()) ↔
      n0 ≠ n1 ∧ s = t ∧ s.length ≠ 1 ∧ ∃ a k, axis = some a ∧ NamesAxis s.length a k ∧ s[k]? = some 3) := by
  by_cases hst : s = t
  swap
  · have h : ∀ c, stdDot n0 s n1 t axis ≠ .ok c := by
      intro c h
      unfold stdDot at h
      rw [if_pos hst] at h
      cases h
    constructor
    · exact ⟨fun ⟨c, hc, _⟩ => absurd hc (h _), fun hc => absurd hc.2.1 hst⟩
    · exact ⟨fun ⟨c, hc, _⟩ => absurd hc (h _), fun hc => absurd hc.2.1 hst⟩
  subst hst
  by_cases hl : s.length = 1
  · obtain ⟨n, rfl⟩ := List.length_eq_one_iff.1 hl
    have h : stdDot n0 [n] n1 [n] axis = .ok (.inl ⟨n0, n1, n⟩) := by simp [stdDot]
    rw [h]
    constructor
    · constructor
      · rintro ⟨c, hc, hs⟩
        cases hc
        exact ⟨setup2_iff.1 hs, rfl, rfl⟩
      · rintro ⟨hne, -, -⟩
        exact ⟨_, rfl, setup2_iff.2 hne⟩
    · constructor
      · rintro ⟨c, hc, hs⟩; cases hc
      · rintro ⟨-, -, h, -⟩; exact absurd rfl h
  have h : stdDot n0 s n1 s axis = match axis with
      | none => .error .typeError
      | some a =>
        match normAxis s.length a with
        | none => .error .indexError
        | some ax => if s.getD ax 0 ≠ 3 then .error .exception else .ok (.inr ⟨n0, n1, s, ax⟩) := by
    unfold stdDot
    rw [if_neg (by simp)]
    match s, hl with
    | [], _ => rfl
    | _ :: _ :: _, _ => rfl
  rw [h]
  constructor
  · constructor
    · rintro ⟨c, hc, hs⟩
      split at hc
      · cases hc
      · split at hc
        · cases hc
        · split at hc <;> cases hc
    · rintro ⟨-, -, h⟩; exact absurd h hl
  · constructor
    · rintro ⟨c, hc, hs⟩
      split at hc
      · cases hc
      · rename_i a
        split at hc
        · cases hc
        · rename_i ax hax
          split at hc
          · cases hc
          · rename_i h3
            cases hc
            have hk := normAxis_iff.1 hax
            refine ⟨setup2_iff.1 hs, rfl, hl, a, ax, rfl, hk, ?_⟩
            rw [List.getElem?_eq_getElem hk.1]
            have h3 := not_not.1 h3
            rw [List.getD_eq_getElem _ _ hk.1] at h3
            rw [h3]
    · rintro ⟨hne, -, -, a, k, rfl, hk, h3⟩
      obtain ⟨hlt, h3⟩ := List.getElem?_eq_some_iff.1 h3
      simp only [normAxis_iff.2 hk]
      rw [if_neg (by rw [List.getD_eq_getElem _ _ hlt, h3]; simp)]
      exact ⟨_, rfl, setup2_iff.2 hne⟩

example : ∃ c, stdDot "a" [2, 3] "b" [2, 3] (some (-1)) = .ok (.inr c) ∧ c.setup = .ok () :=
  ⟨⟨"a", "b", [2, 3], 1⟩, rfl, rfl⟩

example : ∃ c, stdDot "a" [4] "b" [4] none = .ok (.inl c) ∧ c.setup = .ok () :=
  ⟨⟨"a", "b", 4⟩, rfl, rfl⟩

end OM

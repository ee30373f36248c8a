import Verif.Lemmas.Build
import Verif.Props.Group
import Verif.Props.Names

/-! # C93: generated names are valid -/

namespace OM

/-- Letters, digits and underscores of ASCII. -/
def WordChar (c : Char) : Prop := c = '_' ∨ c.isAlphanum

/-- `[a-zA-Z_][a-zA-Z0-9_]*`, the whole text. -/
def IsIdentifier (s : List Char) : Prop := ∃ c r, s = c :: r ∧ (c = '_' ∨ c.isAlpha) ∧ ∀ d ∈ r, WordChar d

/-- `[a-zA-Z][a-zA-Z0-9_]*`, the whole text: the names OpenMDAO allows for subsystems. -/
def IsSubsystemName (s : List Char) : Prop := ∃ c r, s = c :: r ∧ c.isAlpha ∧ ∀ d ∈ r, WordChar d

theorem charSet_word : ∀ c ∈ charSet, WordChar c := by
  unfold WordChar
  decide +kernel

/-- **C93**, text: every generated name consists of letters, digits and underscores. -/
theorem c93_chars (n : Nat) : ∀ c ∈ (genHexName n).toList, WordChar c := by
  intro c hc
  unfold genHexName at hc
  rw [String.toList_ofList] at hc
  exact charSet_word c (name_chars n c hc)

/-- `comp_` and any text of letters, digits and underscores is a name OpenMDAO accepts, and no other. -/
theorem comp_name (name : String) :
    IsSubsystemName ("comp_" ++ name).toList ↔ ∀ c ∈ name.toList, WordChar c := by
  rw [String.toList_append]
  constructor
  · rintro ⟨c, r, h, _, hr⟩ d hd
    have h' : 'c' :: ("omp_".toList ++ name.toList) = c :: r := h
    obtain ⟨_, rfl⟩ := List.cons.inj h'
    exact hr d (List.mem_append_right _ hd)
  · intro h
    refine ⟨'c', "omp_".toList ++ name.toList, rfl, by decide, ?_⟩
    intro d hd
    rcases List.mem_append.1 hd with h' | h'
    · clear hd
      revert d
      unfold WordChar
      decide
    · exact h d h'

theorem decompose_name (name : String) :
    IsIdentifier ("decompose_" ++ name).toList ↔ ∀ c ∈ name.toList, WordChar c := by
  rw [String.toList_append]
  constructor
  · rintro ⟨c, r, h, _, hr⟩ d hd
    have h' : 'd' :: ("ecompose_".toList ++ name.toList) = c :: r := h
    obtain ⟨_, rfl⟩ := List.cons.inj h'
    exact hr d (List.mem_append_right _ hd)
  · intro h
    refine ⟨'d', "ecompose_".toList ++ name.toList, rfl, Or.inr (by decide), ?_⟩
    intro d hd
    rcases List.mem_append.1 hd with h' | h'
    · clear hd
      revert d
      unfold WordChar
      decide
    · exact h d h'

theorem IsIdentifier.word {s : List Char} (h : IsIdentifier s) : ∀ c ∈ s, WordChar c := by
  obtain ⟨c, r, rfl, hc, hr⟩ := h
  intro d hd
  rcases List.mem_cons.1 hd with rfl | hd
  · rcases hc with h | h
    · exact Or.inl h
    · exact Or.inr (by simp [Char.isAlphanum, h])
  · exact hr d hd

theorem hexChar_letter : ∀ d < 63, (hexChar d = '_' ∨ (hexChar d).isAlpha) ↔ 10 ≤ d := by decide +kernel

theorem head_short (n : Nat) (h : n < 63 ^ 4) : ∃ r, hexLoop n "_0000".toList [] = '_' :: r := by
  rw [hexLoop_eq, List.append_nil]
  have h4 := (digs_length n).2 h
  have hp := digs_pos n
  generalize (digs n).reverse.map hexChar = t
  generalize (digs n).length = k at *
  have : ∃ p, List.dropLast^[k] "_0000".toList = '_' :: p := by
    interval_cases k
    · exact ⟨['0', '0', '0'], by decide⟩
    · exact ⟨['0', '0'], by decide⟩
    · exact ⟨['0'], by decide⟩
    · exact ⟨[], by decide⟩
  obtain ⟨p, hp⟩ := this
  exact ⟨p ++ t, by rw [hp]; rfl⟩

theorem head_long (n : Nat) (h : 63 ^ 4 ≤ n) : ∃ k t r, 4 ≤ k ∧ 1 ≤ t ∧ t < 63 ∧ t * 63 ^ k ≤ n ∧ n < (t + 1) * 63 ^ k ∧
    hexLoop n "_0000".toList [] = hexChar t :: r := by
  have h5 : 5 ≤ (digs n).length := by
    by_contra hh
    have := (digs_length n).1 (by omega)
    omega
  have h0 : n ≠ 0 := by
    rintro rfl
    simp at h
  rw [hexLoop_eq, List.append_nil, pre_long _ h5, List.nil_append]
  have hne : digs n ≠ [] := by
    intro h
    rw [h] at h5
    simp at h5
  have hlast : (digs n).getLast hne ≠ 0 := by
    have := Nat.getLast_digit_ne_zero 63 h0
    unfold digs
    simpa [h0] using this
  have hsplit := List.dropLast_append_getLast hne
  generalize (digs n).getLast hne = t at hsplit hlast
  generalize (digs n).dropLast = l at hsplit
  have hlt := digs_lt n
  have hof := ofDigits_digs n
  rw [← hsplit] at h5 hlt hof ⊢
  rw [Nat.ofDigits_append, Nat.ofDigits_singleton] at hof
  have hl := Nat.ofDigits_lt_base_pow_length (b := 63) (l := l) (by norm_num)
    fun x hx => hlt x (List.mem_append_left _ hx)
  refine ⟨l.length, t, (l.reverse.map hexChar), ?_, by omega, hlt t (by simp), ?_, ?_, by simp⟩
  · simp at h5
    omega
  · rw [Nat.mul_comm]
    omega
  · rw [Nat.add_mul, Nat.mul_comm t]
    omega

/-- **C93**, variables: the name generated for the number `n` is an identifier unless `n`, written in base 63, has at least five
digits and the first of them is one of 1 to 9. -/
theorem c93_variable (n : Nat) : IsIdentifier (genHexName n).toList ↔ ∀ k, 4 ≤ k → ¬ (63 ^ k ≤ n ∧ n < 10 * 63 ^ k) := by
  have hc := c93_chars n
  unfold genHexName at hc ⊢
  rw [String.toList_ofList] at hc ⊢
  by_cases hn : n < 63 ^ 4
  · obtain ⟨r, hr⟩ := head_short n hn
    rw [hr] at hc ⊢
    refine ⟨fun _ k hk h => ?_, fun _ => ⟨'_', r, rfl, Or.inl rfl, fun d hd => hc d (List.mem_cons_of_mem _ hd)⟩⟩
    have : 63 ^ 4 ≤ 63 ^ k := Nat.pow_le_pow_right (by norm_num) hk
    omega
  · obtain ⟨k, t, r, hk, ht1, ht, hlo, hhi, hr⟩ := head_long n (by omega)
    rw [hr] at hc ⊢
    constructor
    · rintro ⟨c, r', h, hcc, _⟩ k' hk' ⟨h1, h2⟩
      obtain ⟨rfl, rfl⟩ := List.cons.inj h
      have h10 := (hexChar_letter t ht).1 hcc
      rcases lt_trichotomy k k' with hlt | rfl | hlt
      · have : 63 ^ (k + 1) ≤ 63 ^ k' := Nat.pow_le_pow_right (by norm_num) hlt
        have h3 : (t + 1) * 63 ^ k ≤ 63 * 63 ^ k := Nat.mul_le_mul_right _ (by omega)
        rw [pow_succ] at this
        omega
      · have : 10 * 63 ^ k ≤ t * 63 ^ k := Nat.mul_le_mul_right _ h10
        omega
      · have : 63 ^ (k' + 1) ≤ 63 ^ k := Nat.pow_le_pow_right (by norm_num) hlt
        have h3 : 1 * 63 ^ k ≤ t * 63 ^ k := Nat.mul_le_mul_right _ ht1
        rw [pow_succ] at this
        omega
    · intro h
      refine ⟨hexChar t, r, rfl, (hexChar_letter t ht).2 ?_, fun d hd => hc d (List.mem_cons_of_mem _ hd)⟩
      by_contra h10
      refine h k hk ⟨?_, ?_⟩
      · have h3 : 1 * 63 ^ k ≤ t * 63 ^ k := Nat.mul_le_mul_right _ ht1
        omega
      · have h3 : (t + 1) * 63 ^ k ≤ 10 * 63 ^ k := Nat.mul_le_mul_right _ (by omega)
        omega

/-- **C93**, the first 63⁴ variables have valid names. -/
theorem c93_variable_partial (n : Nat) (h : n < 63 ^ 4) : IsIdentifier (genHexName n).toList :=
  (c93_variable n).2 fun k hk hh => by
    have : 63 ^ 4 ≤ 63 ^ k := Nat.pow_le_pow_right (by norm_num) hk
    omega

/-- **C93, refuted**: the names of the next 9 · 63⁴ variables start with a digit. -/
theorem c93_violated (n : Nat) (h1 : 63 ^ 4 ≤ n) (h2 : n < 10 * 63 ^ 4) : ¬ IsIdentifier (genHexName n).toList :=
  fun h => (c93_variable n).1 h 4 (le_refl 4) ⟨h1, h2⟩

example : IsIdentifier (genHexName 1234567).toList := c93_variable_partial _ (by norm_num)

example : ¬ IsIdentifier (genHexName 15752961).toList := c93_violated _ (by norm_num) (by norm_num)

/-! ## All names of a program -/

/-- The names the user gives in a call. -/
def Op.givenNames : Op → List String
  | .declareInput n | .createIndep n | .createOutput n | .createImplicit n | .registerOutput n _ | .addSubsystem n => [n]
  | _ => []

section
variable {P : String → Prop} {N : Nat} {env : GEnv}

/-- All names of the objects so far (up to number `N`) are as wanted. -/
def NamesOk (P : String → Prop) (N : Nat) (w : World) : Prop := ∀ u < w.next, u < N → P (w.name u)

theorem NamesOk.alloc {w : World} (h : NamesOk P N w) (k : Kind) (n : String) (hn : w.next < N → P n) :
    NamesOk P N (w.alloc k n) := by
  intro u hu hN
  show P (Function.update w.name w.next n u)
  by_cases e : u = w.next
  · subst e
    rw [Function.update_self]
    exact hn hN
  · rw [Function.update_of_ne e]
    refine h u ?_ hN
    have : u < w.next + 1 := hu
    omega

theorem NamesOk.addDep {w : World} (h : NamesOk P N w) (u v : Ref) : NamesOk P N (w.addDep env u v) := h

theorem NamesOk.addDeps {w : World} (h : NamesOk P N w) (u : Ref) (l : List Ref) :
    NamesOk P N (l.foldl (fun w' a => w'.addDep env u a) w) := by
  induction l generalizing w with
  | nil => exact h
  | cons a l ih => exact ih (h.addDep u a)

theorem NamesOk.register {w : World} (h : NamesOk P N w) (n : String) (x : Ref) (hn : x < N → P n) :
    NamesOk P N (w.register env n x).1 := by
  unfold World.register
  split
  · exact h
  · split
    · exact h
    · intro u hu hN
      show P (Function.update w.name x n u)
      by_cases e : u = x
      · subst e
        rw [Function.update_self]
        exact hn hN
      · rw [Function.update_of_ne e]
        exact h u hu hN

theorem NamesOk.step {w : World} (h : NamesOk P N w) (hdec : ∀ s, P s → P ("decompose_" ++ s))
    (hauto : ∀ u < N, P (env.autoName u)) (op : Op) (hv : op.Valid w) (hg : ∀ n ∈ op.givenNames, P n) :
    NamesOk P N (step env w op).1 := by
  cases op with
  | declareInput n =>
    have h1 := h.alloc .input n fun _ => hg n (by simp [Op.givenNames])
    simp only [OM.step]
    cases w.recent with
    | none => exact h1
    | some s => exact h1.addDep _ _
  | createIndep n =>
    have hn : P n := hg n (by simp [Op.givenNames])
    have h1 := h.alloc .indep n fun _ => hn
    simp only [OM.step]
    cases w.recent with
    | none => exact h1.register n _ fun _ => hn
    | some s => exact (h1.addDep (env := env) s w.next).register n _ fun _ => hn
  | createOutput n => exact (h.alloc .explicitOut n fun _ => hg n (by simp [Op.givenNames])).addDep _ _
  | createImplicit n => exact h.alloc .implicitOut n fun _ => hg n (by simp [Op.givenNames])
  | combine args => exact (h.alloc .expr _ fun hN => hauto _ hN).addDeps _ _
  | getItem x =>
    cases hd : w.decomp x with
    | some d =>
      simp only [OM.step, hd]
      exact h.alloc .item _ fun hN => hauto _ hN
    | none =>
      have h1 := h.alloc .decomp ("decompose_" ++ w.name x) fun hN => hdec _ (h x hv.2 (by
        have := hv.2
        omega))
      simp only [OM.step, hd, Function.update_self]
      exact NamesOk.alloc (w := { ((w.alloc .decomp ("decompose_" ++ w.name x)).addDep env w.next x) with
        decomp := Function.update w.decomp x (some w.next) }) h1 .item _ fun hN => hauto _ hN
  | registerOutput n x => exact h.register n x fun _ => hg n (by simp [Op.givenNames])
  | addSubsystem n =>
    exact (h.alloc .subsystem n fun _ => hg n (by simp [Op.givenNames])).addDeps _ _
  | define out e =>
    simp only [OM.step]
    split
    · exact h
    · split
      · exact h
      · split
        · exact h
        · have h2 : NamesOk P N ((({ w with defined := Function.update w.defined out true } : World).addDep env out e).alloc
              .input (w.name out)) := by
            refine NamesOk.alloc (w := ({ w with defined := Function.update w.defined out true } : World).addDep env out e) h _ _
              fun hN => h out hv.1.2 ?_
            have := hv.1.2
            have h3 : w.next < N := hN
            omega
          split
          · exact h2
          · exact h2
  | setItem out e check =>
    simp only [OM.step]
    split
    · exact h
    · cases check <;> exact h
  | defineResidual out e =>
    simp only [OM.step]
    split
    · exact h
    · split
      · exact h
      · split
        · exact h
        · have h2 : NamesOk P N (w.alloc .input (w.name out)) := by
            refine h.alloc _ _ fun hN => h out hv.1.2 ?_
            have := hv.1.2
            omega
          split
          · exact h2
          · rename_i g _
            have h3 : NamesOk P N (({ w.alloc .input (w.name out) with deps := g } : World).register env
                ((w.alloc .input (w.name out)).name e) e).1 := by
              refine NamesOk.register (w := { w.alloc .input (w.name out) with deps := g }) h2 _ _ fun hN => ?_
              refine h2 e ?_ hN
              have := hv.2.2
              show e < w.next + 1
              omega
            split
            · exact h3
            · exact h3

theorem namesOk_run (hdec : ∀ s, P s → P ("decompose_" ++ s)) (hauto : ∀ u < N, P (env.autoName u)) (ops : List Op) :
    ∀ w, NamesOk P N w → ValidFrom env w ops → (∀ op ∈ ops, ∀ n ∈ op.givenNames, P n) → NamesOk P N (run env w ops) := by
  induction ops with
  | nil => exact fun w h _ _ => h
  | cons op ops ih =>
    intro w h hv hg
    exact ih _ (h.step hdec hauto op hv.1 (hg op (by simp))) hv.2 fun o ho => hg o (List.mem_cons_of_mem _ ho)

theorem namesOk_final (hdec : ∀ s, P s → P ("decompose_" ++ s)) (hauto : ∀ u < N, P (env.autoName u)) {ops : List Op}
    (hv : ValidFrom env (World.init env) ops) (hg : ∀ op ∈ ops, ∀ n ∈ op.givenNames, P n) :
    NamesOk P N (final env ops) :=
  namesOk_run hdec hauto ops _ (fun u _ hN => hauto u hN) hv hg

end

/-- **C93**, components, for every program: if the names the user gives consist of letters, digits and underscores, then every
component that is not a group gets a name that OpenMDAO accepts. `base` is the number of expressions made before this group. -/
theorem c93_components {genv : GEnv} {base : Nat} (ha : ∀ u, genv.autoName u = genHexName (base + u)) {ops : List Op}
    (hv : ValidFrom genv (World.init genv) ops) (hg : ∀ op ∈ ops, ∀ n ∈ op.givenNames, ∀ c ∈ n.toList, WordChar c)
    (isGroup : Ref → Bool) (u : Ref) (hu : u < (final genv ops).next)
    (hu' : ¬ ((final genv ops).kind u = .subsystem ∧ isGroup u)) :
    IsSubsystemName (compName isGroup (final genv ops) u).toList := by
  unfold compName
  rw [if_neg hu', comp_name]
  refine namesOk_final (P := fun s => ∀ c ∈ s.toList, WordChar c) (N := u + 1) ?_ ?_ hv hg u hu (by omega)
  · intro s hs
    exact ((decompose_name s).2 hs).word
  · intro v _
    rw [ha]
    exact c93_chars _

/-- **C93**, groups: a group keeps the name the user gave, so a name that starts with an underscore or a digit, which would do
for a component, is refused. -/
theorem c93_group (w : World) (isGroup : Ref → Bool) (u : Ref) (hu : w.kind u = .subsystem) (hg : isGroup u) :
    compName isGroup w u = w.name u := by
  unfold compName
  rw [if_pos ⟨hu, hg⟩]

/-- **C93**, variables, for every program: if the names the user gives are identifiers and fewer than 63⁴ expressions have been
made, all names are identifiers. -/
theorem c93_variables_partial {genv : GEnv} {base : Nat} (ha : ∀ u, genv.autoName u = genHexName (base + u)) {ops : List Op}
    (hv : ValidFrom genv (World.init genv) ops) (hg : ∀ op ∈ ops, ∀ n ∈ op.givenNames, IsIdentifier n.toList)
    (u : Ref) (hu : u < (final genv ops).next) (hb : base + u < 63 ^ 4) :
    IsIdentifier ((final genv ops).name u).toList := by
  refine namesOk_final (P := fun s => IsIdentifier s.toList) (N := u + 1) ?_ ?_ hv hg u hu (by omega)
  · intro s hs
    exact (decompose_name s).2 hs.word
  · intro v hvN
    rw [ha]
    exact c93_variable_partial _ (by omega)

/-- `y = x[0] + z`, registered as `y`. -/
def namedOps : List Op :=
  [.createIndep "x", .declareInput "z", .getItem 1, .combine [4, 2], .registerOutput "y" 5, .addSubsystem "sub"]

def namedEnv : GEnv := ⟨demoEnv.ov, 100, fun u => genHexName (7 + u)⟩

theorem namedOps_valid : ValidFrom namedEnv (World.init namedEnv) namedOps := by
  refine ⟨trivial, trivial, ?_, ?_, ?_, trivial, trivial⟩
  · exact ⟨by decide, by decide⟩
  · intro a ha
    have h : a = 4 ∨ a = 2 := by simpa using ha
    rcases h with rfl | rfl <;> exact ⟨by decide, by decide⟩
  · exact ⟨by decide, by decide⟩

theorem namedOps_names : ∀ op ∈ namedOps, ∀ n ∈ op.givenNames, IsIdentifier n.toList := by
  intro op hop n hn
  have h : n = "x" ∨ n = "z" ∨ n = "y" ∨ n = "sub" := by
    simp only [namedOps, List.mem_cons, List.not_mem_nil, or_false] at hop
    rcases hop with rfl | rfl | rfl | rfl | rfl | rfl <;> simp_all [Op.givenNames]
  rcases h with rfl | rfl | rfl | rfl
  · exact ⟨'x', [], rfl, Or.inr (by decide), by simp⟩
  · exact ⟨'z', [], rfl, Or.inr (by decide), by simp⟩
  · exact ⟨'y', [], rfl, Or.inr (by decide), by simp⟩
  · exact ⟨'s', ['u', 'b'], rfl, Or.inr (by decide), by unfold WordChar; decide⟩

/-- The component of the decomposition of `x`. -/
example : IsSubsystemName (compName (fun _ => false) (final namedEnv namedOps) 3).toList :=
  c93_components (base := 7) (fun _ => rfl) namedOps_valid (fun op ho n hn => (namedOps_names op ho n hn).word) _ 3
    (by decide) (by decide)

example : IsIdentifier ((final namedEnv namedOps).name 4).toList :=
  c93_variables_partial (base := 7) (fun _ => rfl) namedOps_valid namedOps_names 4 (by decide) (by norm_num)

end OM

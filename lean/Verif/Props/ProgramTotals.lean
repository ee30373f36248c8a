import Verif.Props.Program
import Verif.Props.Totals

/-!
# Total derivatives of a whole group

C56 for the programs the user writes, of any components that read and write the variables of the calls.
-/

namespace OM
open Spec

/-- The components `comp` read and write at most the variables that the calls of the user say. (Independent
variables may be seen as given from outside: then they are not written.) -/
def Realises {α : Type} {V : String → Type} (genv : GEnv) (m : Meaning α) (ops : List Op)
    (comp : Ref → Comp V) : Prop :=
  ∀ u, (comp u).reads ⊆ (compOf m (final genv ops) (wires genv ops) u).reads ∧
    (comp u).writes ⊆ (compOf m (final genv ops) (wires genv ops) u).writes

section
variable {genv : GEnv} {env : SetupEnv} {α : Type} {m : Meaning α} {ops : List Op} {comps : List Ref}
  {V : String → Type} {comp : Ref → Comp V}

theorem realises_own (h : ProgramCore genv env m ops) (hc : Arranged genv ops comps)
    (hr : Realises genv m ops comp) : OwnNames (· ∈ comps) comp :=
  fun u v _ hu hv h1 h2 => program_own h (comps_lt h hc hu) (comps_lt h hc hv) ((hr u).2 h1) ((hr v).2 h2)

theorem realises_reads (h : ProgramOk genv env m ops) (hold : OldNamesFree genv m ops)
    (hc : Arranged genv ops comps) (ho : InOrder genv m ops comps) (hr : Realises genv m ops comp) :
    ∀ u ∈ comps, ∀ n ∈ (comp u).reads, ReadOk comp comps u n := by
  intro u hu n hn
  by_cases hw : ∃ v ∈ comps, n ∈ (comp v).writes
  · obtain ⟨v, hv, hm⟩ := hw
    rcases program_reads h hold hc ho hu ((hr u).1 hn) with h1 | ⟨v', hb, hm'⟩
    · exact absurd ((hr v).2 hm) (h1 v hv)
    · obtain rfl : v = v' := by
        refine program_own h.toProgramCore (comps_lt h.toProgramCore hc hv) (comps_lt h.toProgramCore hc ?_) ((hr v).2 hm) hm'
        obtain ⟨x, y, z, rfl⟩ := hb
        simp
      exact Or.inr ⟨v, hb, hm⟩
  · left
    intro v hv hm
    exact hw ⟨v, hv, hm⟩

end

/-- **C56** for components of a program in an order in which they can be run: forward accumulation of exact partial
derivatives gives the derivative of every variable, and it is the only solution of OpenMDAO's linear system of total
derivatives. -/
theorem c56_arranged {E : String → Type} [∀ n, NormedAddCommGroup (E n)] [∀ n, NormedSpace ℝ (E n)]
    {P : Type} [NormedAddCommGroup P] [NormedSpace ℝ P]
    {genv : GEnv} {env : SetupEnv} {α : Type} {m : Meaning α} {ops : List Op} {comps : List Ref}
    (h : ProgramOk genv env m ops) (hold : OldNamesFree genv m ops)
    (hc : Arranged genv ops comps) (ho : InOrder genv m ops comps) {comp : Ref → Comp E}
    (hr : Realises genv m ops comp) (D : (u : Ref) → Partials (comp u))
    (init : P → Store E) (p₀ : P) (d₀ : (n : String) → P →L[ℝ] E n)
    (hinit : ∀ n, HasFDerivAt (fun p => init p n) (d₀ n) p₀)
    (hexact : ∀ u ∈ comps, (D u).ExactAt fun i => runAll (comps.map comp) (init p₀) (comp u).reads[i]) :
    let tangents := runAll (comps.map fun u =>
      tangentComp P (comp u) (D u) (runAll (comps.map comp) (init p₀))) d₀
    (∀ n, HasFDerivAt (fun p => runAll (comps.map comp) (init p) n) (tangents n) p₀) ∧
    ∀ d, TotalSystem (· ∈ comps) comp D (runAll (comps.map comp) (init p₀)) d₀ d ↔ d = tangents := by
  intro tangents
  have hnd := hc.nodup
  have hown := realises_own h.toProgramCore hc hr
  have hreads := realises_reads h hold hc ho hr
  have hsys : TotalSystem (· ∈ comps) comp D (runAll (comps.map comp) (init p₀)) d₀ tangents := by
    refine ⟨fun n hn => ?_, fun u hu n hn => ?_⟩
    · exact runAll_untouched (comp := fun u =>
        tangentComp P (comp u) (D u) (runAll (comps.map comp) (init p₀))) comps d₀ hn
    · exact runAll_fixed (comp := fun u =>
        tangentComp P (comp u) (D u) (runAll (comps.map comp) (init p₀))) hnd hown hreads d₀ hu hn
  have hder := fun d hd => total_hasFDerivAt (d := d) hnd hown hreads (fun n _ => hinit n) hexact hd
  refine ⟨hder _ hsys, fun d => ⟨fun hd => funext fun n => ?_, fun hd => hd ▸ hsys⟩⟩
  exact (hder d hd n).unique (hder _ hsys n)

/-- **C56** for programs: in the order chosen by `setup`, forward accumulation of exact partial derivatives
gives the derivative of every variable of the group, and it is the only solution of OpenMDAO's linear system
of total derivatives. -/
theorem c56_program {E : String → Type} [∀ n, NormedAddCommGroup (E n)] [∀ n, NormedSpace ℝ (E n)]
    {P : Type} [NormedAddCommGroup P] [NormedSpace ℝ P]
    {genv : GEnv} {env : SetupEnv} {α : Type} {m : Meaning α} {ops : List Op} {comps : List Ref}
    (h : ProgramOk genv env m ops) (hold : OldNamesFree genv m ops)
    (hc : setupGroup env (final genv ops) = .ok comps) {comp : Ref → Comp E}
    (hr : Realises genv m ops comp) (D : (u : Ref) → Partials (comp u))
    (init : P → Store E) (p₀ : P) (d₀ : (n : String) → P →L[ℝ] E n)
    (hinit : ∀ n, HasFDerivAt (fun p => init p n) (d₀ n) p₀)
    (hexact : ∀ u ∈ comps, (D u).ExactAt fun i => runAll (comps.map comp) (init p₀) (comp u).reads[i]) :
    let tangents := runAll (comps.map fun u =>
      tangentComp P (comp u) (D u) (runAll (comps.map comp) (init p₀))) d₀
    (∀ n, HasFDerivAt (fun p => runAll (comps.map comp) (init p) n) (tangents n) p₀) ∧
    ∀ d, TotalSystem (· ∈ comps) comp D (runAll (comps.map comp) (init p₀)) d₀ d ↔ d = tangents :=
  c56_arranged h hold (arranged_setup h.group hc) (inOrder_setup h hc) hr D init p₀ d₀ hinit hexact

/-- Every component computes the sum of the squares of its inputs. -/
noncomputable def squares (c : Comp fun _ => Int) : Comp fun _ => ℝ :=
  ⟨c.reads, c.writes, fun x _ => ∑ i, x i * x i⟩

noncomputable def squaresPartials (c : Comp fun _ => Int) : Partials (squares c) :=
  fun x _ i => (2 * x i) • ContinuousLinearMap.id ℝ ℝ

theorem squares_exact (c : Comp fun _ => Int) (x) : (squaresPartials c).ExactAt x := by
  intro n _
  have h0 : ∀ i : Fin c.reads.length, HasFDerivAt (fun y : Fin c.reads.length → ℝ => y i * y i)
      (x i • ContinuousLinearMap.proj (R := ℝ) (φ := fun _ : Fin c.reads.length => ℝ) i +
        x i • ContinuousLinearMap.proj (R := ℝ) (φ := fun _ : Fin c.reads.length => ℝ) i) x :=
    fun i => (hasFDerivAt_apply (𝕜 := ℝ) i x).mul (hasFDerivAt_apply (𝕜 := ℝ) i x)
  have h1 := HasFDerivAt.fun_sum (u := Finset.univ) fun i _ => h0 i
  refine HasFDerivAt.congr_fderiv (f := fun y : Fin c.reads.length → ℝ => ∑ i, y i * y i) h1 ?_
  ext q
  show _ = (∑ i : Fin c.reads.length, ((2 * x i) • ContinuousLinearMap.id ℝ ℝ).comp
    (ContinuousLinearMap.proj (R := ℝ) (φ := fun _ : Fin c.reads.length => ℝ) i)) q
  simp only [ContinuousLinearMap.sum_apply]
  refine Finset.sum_congr rfl fun i _ => ?_
  show x i * q i + x i * q i = (2 * x i) * q i
  ring

theorem prog_old : OldNamesFree progGEnv progMeaning progOps :=
  fun _ _ _ _ e1 => Or.inl (registeredFirst_names prog_groupOk.valid prog_first e1).symm

/-- The hypotheses of `c56_program` hold for the program with an output assigned by parts, a subsystem and
an output defined by an expression; its independent variable and the parameter start as `p` from outside. -/
example (p₀ : ℝ) : ∃ d : String → ℝ →L[ℝ] ℝ, ∀ n,
    HasFDerivAt (fun p : ℝ => runAll ([1, 2, 3, 6, 7, 5, 9].map fun u => if u = 1 then ⟨[], [], fun _ _ => 0⟩ else
      squares (compOf progMeaning (final progGEnv progOps) (wires progGEnv progOps) u)) (fun _ => p) n)
      (d n) p₀ := by
  let comp : Ref → Comp fun _ => ℝ := fun u => if u = 1 then ⟨[], [], fun _ _ => 0⟩ else
    squares (compOf progMeaning (final progGEnv progOps) (wires progGEnv progOps) u)
  have hr : Realises progGEnv progMeaning progOps comp := by
    intro u
    by_cases hu : u = 1
    · simp [comp, hu]
    · simp only [comp, if_neg hu]
      exact ⟨fun _ h => h, fun _ h => h⟩
  have hD : ∀ u, ∃ D : Partials (comp u), ∀ x, D.ExactAt x := by
    intro u
    by_cases hu : u = 1
    · have : comp u = ⟨[], [], fun _ _ => 0⟩ := if_pos hu
      rw [this]
      exact ⟨fun _ _ _ => 0, fun _ _ h => by simp at h⟩
    · have : comp u = squares _ := if_neg hu
      rw [this]
      exact ⟨squaresPartials _, squares_exact _⟩
  choose D hD using hD
  exact ⟨_, (c56_program prog_ok prog_old (by decide) hr D (fun p _ => p) p₀
    (fun _ => ContinuousLinearMap.id ℝ ℝ) (fun _ => hasFDerivAt_id _) fun u _ => hD u _).1⟩

end OM

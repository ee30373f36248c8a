import Verif.Props.ImplSystem
import Verif.Props.Solvers

/-!
# Implicit components with feedback inside (C75, C78)

The subsystems of an implicit component may be groups with feedback that are iterated.
-/

namespace OM
open Spec

/-- One pass over what the group of an implicit component contains. -/
def implPass (once : System → Prop) (genv : GEnv) (prog : List ImplStmt) (l : Layout) (comps : List Ref)
    (sub : Ref → System) (size : String → Nat) : Store (FlatArr size) → Store (FlatArr size) → Prop :=
  sweep (fun u s t => if (implWorld genv prog).kind u = .subsystem then (sub u).RunsTo once size id s t
    else (outsCompE size (l.outsOf (implWorld genv prog) (wires genv (implOps prog)) u)).run s = .ok t) comps

/-- A run of the internal problem, without exceptions: a single pass if it is run `once`, or passes until nothing changes. -/
def ImplRunsTo (once : System → Prop) (genv : GEnv) (env : SetupEnv) (prog : List ImplStmt) (l : Layout) (comps : List Ref)
    (sub : Ref → System) (size : String → Nat) (S T : Store (FlatArr size)) : Prop :=
  (once (implSys genv env prog l comps sub) ∧ implPass once genv prog l comps sub size S T) ∨
    (Relation.ReflTransGen (implPass once genv prog l comps sub size) S T ∧ implPass once genv prog l comps sub size T T)

theorem sweep_congr {S : Type} {f g : Ref → S → S → Prop} {l : List Ref} (h : ∀ u ∈ l, f u = g u) :
    sweep f l = sweep g l := by
  induction l with
  | nil => rfl
  | cons u l ih =>
    funext s t
    show (∃ s', f u s s' ∧ sweep f l s' t) = ∃ s', g u s s' ∧ sweep g l s' t
    rw [h u (by simp), ih fun v hv => h v (by simp [hv])]

section
variable {genv : GEnv} {env : SetupEnv} {prog : List ImplStmt} {l : Layout} {comps : List Ref} {sub : Ref → System}
  {iface : ImplInterface} {size : String → Nat} {once : System → Prop}

/-- The run of the internal problem as a run of the explicit group. -/
theorem ImplCompiled.runsTo (h : ImplCompiled genv env (interface sub) prog l comps iface size)
    (hsub : ∀ s ∈ comps, (implWorld genv prog).kind s = .subsystem → (sub s).OkOn size) {S T : Store (FlatArr size)} :
    ImplRunsTo once genv env prog l comps sub size S T ↔ (implSys genv env prog l comps sub).RunsTo once size id S T := by
  have hok := h.sysOkOn hsub
  obtain ⟨⟨P, hs⟩, -, -⟩ := h.sims
  have hp : implPass once genv prog l comps sub size = sweep (fun u s t =>
      if (worldOf genv (explicitOf genv prog)).kind u = .subsystem then (sub u).RunsTo once size id s t
      else (outsCompE size (renOuts id (l.outsOf (worldOf genv (explicitOf genv prog)) (wiresOf genv (explicitOf genv prog)) u))).run
        s = .ok t) comps := by
    refine sweep_congr fun u hu => ?_
    have hk : (implWorld genv prog).kind u = .subsystem ↔ (worldOf genv (explicitOf genv prog)).kind u = .subsystem :=
      (hs.kind_eq (u := u) (by decide) (by decide)).symm
    funext s t
    by_cases hu' : (implWorld genv prog).kind u = .subsystem
    · simp only [if_pos hu', if_pos (hk.1 hu')]
    · simp only [if_neg hu', if_neg (mt hk.2 hu')]
      rw [renOuts_id (outsOf_shaped hok.1 hu).ins, h.outsOf]
  unfold ImplRunsTo
  rw [hp]
  rfl

theorem ImplCompiled.sequential (h : ImplCompiled genv env (interface sub) prog l comps iface size)
    (hq : ∀ s ∈ comps, (implWorld genv prog).kind s = .subsystem → (sub s).Sequential once size) :
    (implSys genv env prog l comps sub).Sequential once size := by
  obtain ⟨⟨P, hs⟩, -, -⟩ := h.sims
  exact ⟨fun _ => h.part, fun s hsm hk => hq s hsm ((hs.kind_eq (u := s) (by decide) (by decide)).1 hk)⟩

/-- What no component computes has, after any calls, the value from before, unless it is an input or output of the
component. -/
theorem ImplCompiled.doesAll_kept (h : ImplCompiled genv env (interface sub) prog l comps iface size)
    (hsub : ∀ s ∈ comps, (implWorld genv prog).kind s = .subsystem → (sub s).OkOn size)
    {cs : List (ImplCall (FlatArr size))} (hcs : ∀ c ∈ cs, c.Of iface.outs) {n : String}
    (hn : (implSys genv env prog l comps sub).Given n) (hno : n ∉ iface.outs ++ iface.ins) {S T : Store (FlatArr size)}
    (hr : (implSysProb genv prog l comps sub iface size).DoesAll (ImplRunsTo once genv env prog l comps sub size) cs S T) :
    T n = S n := by
  have hrun : ∀ {A B : Store (FlatArr size)}, ImplRunsTo once genv env prog l comps sub size A B → B n = A n := by
    intro A B hAB
    refine runsTo_frame _ ((h.runsTo hsub).1 hAB) fun c hc hw => ?_
    rw [wr_renOuts, List.map_id] at hw
    exact hn c hc hw
  have hset : ∀ x A, (implSysProb genv prog l comps sub iface size).setValues x A n = A n := fun x A => if_neg hno
  induction cs generalizing S with
  | nil => cases hr; rfl
  | cons c cs ih =>
    obtain ⟨A, h1, h2⟩ := hr
    rw [ih (fun c hc => hcs c (by simp [hc])) h2]
    have ho := hcs c (by simp)
    cases c with
    | residuals x => exact (hrun h1).trans (hset x S)
    | trial x out b =>
      refine (hrun h1).trans ?_
      have hne : n ≠ out := by
        rintro rfl
        exact hno (List.mem_append.2 (Or.inl ho))
      simp only [Store.set, Function.update, dif_neg hne]
      exact hset x S
    | linearize x =>
      cases h1
      exact hset x S

/-- **C75, residuals**, with feedback inside. The subsystems may be groups with feedback, if these are iterated until
nothing changes. Whatever the component was used for before, if `apply_nonlinear` with the values `x` of its inputs and
outputs ends without exception at arrays `S` at which the calls are defined, it has kept these values and everything else
that no component computes, and `S` satisfies the equations of the program and of all groups in it. All residuals are
among them. -/
theorem c75_feedback_residuals (h : ImplCompiled genv env (interface sub) prog l comps iface size)
    (hsub : ∀ s ∈ comps, (implWorld genv prog).kind s = .subsystem → (sub s).OkOn size)
    (hq : ∀ s ∈ comps, (implWorld genv prog).kind s = .subsystem → (sub s).Sequential once size)
    {cs : List (ImplCall (FlatArr size))} (hcs : ∀ c ∈ cs, c.Of iface.outs) (x : Store (FlatArr size))
    {s A S : Store (FlatArr size)} :
    let p := implSysProb genv prog l comps sub iface size
    p.DoesAll (ImplRunsTo once genv env prog l comps sub size) cs s A →
    p.Does (ImplRunsTo once genv env prog l comps sub size) (.residuals x) A S →
    (implSys genv env prog l comps sub).Defined (arrOf S) →
    (∀ n ∈ iface.outs ++ iface.ins, S n = x n) ∧
    (∀ n, n ∉ iface.outs ++ iface.ins → (∀ c ∈ implFlat genv prog l comps sub, n ∉ wr c) → S n = s n) ∧
    (implSys genv env prog l comps sub).Solved (arrOf S) ∧
    ∀ r ∈ residualsOf genv prog, Valued genv (explicitOf genv prog) comps r.1 := by
  intro p hA hS hd
  obtain ⟨h1, h2⟩ := c78_runs _ (h.sysOkOn hsub) (h.sequential hq) ((h.runsTo hsub).1 hS) hd
  refine ⟨fun n hn => ?_, fun n hn hw => ?_, h1, fun r hr => (h.valued hr).1⟩
  · rw [h2 n (h.sysGiven hsub hn)]
    exact if_pos hn
  · rw [h.flat_eq] at hw
    rw [h2 n hw]
    exact (if_neg hn).trans (h.doesAll_kept hsub hcs hw hn hA)

/-- **C75, trial runs**, with feedback inside. -/
theorem c75_feedback_trial (h : ImplCompiled genv env (interface sub) prog l comps iface size)
    (hsub : ∀ s ∈ comps, (implWorld genv prog).kind s = .subsystem → (sub s).OkOn size)
    (hq : ∀ s ∈ comps, (implWorld genv prog).kind s = .subsystem → (sub s).Sequential once size)
    {cs : List (ImplCall (FlatArr size))} (hcs : ∀ c ∈ cs, c.Of iface.outs) (x : Store (FlatArr size)) {out : String}
    (ho : out ∈ iface.outs) (b : FlatArr size out) {s A S : Store (FlatArr size)} :
    let p := implSysProb genv prog l comps sub iface size
    p.DoesAll (ImplRunsTo once genv env prog l comps sub size) cs s A →
    p.Does (ImplRunsTo once genv env prog l comps sub size) (.trial x out b) A S →
    (implSys genv env prog l comps sub).Defined (arrOf S) →
    (∀ n ∈ iface.outs ++ iface.ins, S n = Function.update x out b n) ∧
    (∀ n, n ∉ iface.outs ++ iface.ins → (∀ c ∈ implFlat genv prog l comps sub, n ∉ wr c) → S n = s n) ∧
    (implSys genv env prog l comps sub).Solved (arrOf S) := by
  intro p hA hS hd
  obtain ⟨h1, h2⟩ := c78_runs _ (h.sysOkOn hsub) (h.sequential hq) ((h.runsTo hsub).1 hS) hd
  have ho' : out ∈ iface.outs ++ iface.ins := List.mem_append.2 (Or.inl ho)
  refine ⟨fun n hn => ?_, fun n hn hw => ?_, h1⟩
  · rw [h2 n (h.sysGiven hsub hn)]
    by_cases hno : n = out
    · subst hno
      simp only [Store.set, Function.update, dif_pos]
    · simp only [Store.set, Function.update, dif_neg hno]
      exact if_pos hn
  · rw [h.flat_eq] at hw
    rw [h2 n hw]
    have hno : n ≠ out := by
      rintro rfl
      exact hn ho'
    simp only [Store.set, Function.update, dif_neg hno]
    exact (if_neg hn).trans (h.doesAll_kept hsub hcs hw hn hA)

/-- **C75, Jacobian**, with feedback inside. Let `apply_nonlinear` have ended at arrays `S q` at which the calls are
defined, for all `q` near `q₀`, with the values `x q` of inputs and outputs, whatever the component was used for before,
and let `S` be differentiable at `q₀`. Then after `linearize (x q₀)`, which runs nothing, the derivatives of `S`, the
residuals among them, solve the linear system from which `compute_totals` computes. They are its only solution if the
system, with zero derivatives of all that is given, has only the solution zero.

Partial for the same reason as without feedback: the state after `linearize` is only right because `apply_nonlinear` was
called with the same values before. -/
theorem c75_feedback_jacobian_partial (h : ImplCompiled genv env (interface sub) prog l comps iface size)
    (hsub : ∀ s ∈ comps, (implWorld genv prog).kind s = .subsystem → (sub s).OkOn size)
    (hq : ∀ s ∈ comps, (implWorld genv prog).kind s = .subsystem → (sub s).Sequential once size)
    {P : Type} [NormedAddCommGroup P] [NormedSpace ℝ P] {x A S : P → Store (FlatArr size)} {q₀ : P}
    (hS : ∀ᶠ q in nhds q₀, (implSysProb genv prog l comps sub iface size).Does
      (ImplRunsTo once genv env prog l comps sub size) (.residuals (x q)) (A q) (S q) ∧
      (implSys genv env prog l comps sub).Defined (arrOf (S q)))
    {d : (n : String) → P →L[ℝ] FlatArr size n} (hd : ∀ n, HasFDerivAt (fun q => S q n) (d n) q₀)
    {L : Store (FlatArr size)} (hL : (implSysProb genv prog l comps sub iface size).Does
      (ImplRunsTo once genv env prog l comps sub size) (.linearize (x q₀)) (S q₀) L) :
    let cs := implFlat genv prog l comps sub
    let N := fun k => k ∈ List.range cs.length
    TotalSystem N (flatComp size cs) (flatPartials size cs) L d d ∧
    ∀ d₀, (∀ n, (∀ c ∈ cs, n ∉ wr c) → d₀ n = d n) →
      (∀ e : (n : String) → P →L[ℝ] FlatArr size n,
        TotalSystem N (flatComp size cs) (flatPartials size cs) L (fun _ => 0) e → ∀ n, e n = 0) →
      ∀ d', TotalSystem N (flatComp size cs) (flatPartials size cs) L d₀ d' ↔ d' = d := by
  have hok := h.sysOkOn hsub
  have hrun := fun {q} (hq' : (implSysProb genv prog l comps sub iface size).Does
      (ImplRunsTo once genv env prog l comps sub size) (.residuals (x q)) (A q) (S q) ∧
      (implSys genv env prog l comps sub).Defined (arrOf (S q))) =>
    c78_runs _ hok (h.sequential hq) ((h.runsTo hsub).1 hq'.1) hq'.2
  have hLS : L = S q₀ := by
    rw [show L = _ from hL]
    funext n
    show (if n ∈ iface.outs ++ iface.ins then x q₀ n else S q₀ n) = S q₀ n
    split
    · rename_i hn
      rw [(hrun hS.self_of_nhds).2 n (h.sysGiven hsub hn)]
      exact (if_pos hn).symm
    · rfl
  rw [hLS, h.flat_eq]
  exact c78_totals _ hok (hS.mono fun q hq' => (hrun hq').1) hd

/-- **C75, solution**, with feedback inside. Let the trial runs of `solve_nonlinear` end without exception at arrays at
which the calls are defined, whatever the component was used for before, and let the residual of a bracketed output be,
elementwise, a continuous function that changes sign between the brackets. Then the array that `solve_nonlinear` stores is
within `|x2 - x1| / 2 ^ 101` of an array for which the equations of the program and of all groups in it hold with residual
zero. Missing: residuals that are not elementwise (`c48_coupled`), more than one output (`c49_two_outputs`). -/
theorem c75_feedback_solved_partial (h : ImplCompiled genv env (interface sub) prog l comps iface size)
    (hsub : ∀ s ∈ comps, (implWorld genv prog).kind s = .subsystem → (sub s).OkOn size)
    (hq : ∀ s ∈ comps, (implWorld genv prog).kind s = .subsystem → (sub s).Sequential once size)
    (s x : Store (FlatArr size)) {out : String} (ho : out ∈ iface.outs) {r : Ref}
    (_ : (r, out) ∈ residualsOf genv prog) (x1 x2 : Arr) {ρ : Nat → ℝ → ℝ} {N : Nat}
    (hN : N ≤ size ((implWorld genv prog).name r))
    (hρ : ∀ (z : Arr) (S : Store (FlatArr size)), (∀ j, z j ∈ Set.uIcc (x1 j) (x2 j)) →
      (∀ n ∈ iface.outs ++ iface.ins, S n = Function.update x out (fun i => z i) n) →
      (∀ n, n ∉ iface.outs ++ iface.ins → (∀ c ∈ implFlat genv prog l comps sub, n ∉ wr c) → S n = s n) →
      (implSys genv env prog l comps sub).Solved (arrOf S) →
      ∀ i (hi : i < N), S ((implWorld genv prog).name r) ⟨i, hi.trans_le hN⟩ = ρ i (z i)) (f : Arr → Arr)
    (hf : ∀ z, (∀ j, z j ∈ Set.uIcc (x1 j) (x2 j)) → ∃ (cs : List (ImplCall (FlatArr size))) (A S : Store (FlatArr size)),
      (∀ c ∈ cs, c.Of iface.outs) ∧
      (implSysProb genv prog l comps sub iface size).DoesAll (ImplRunsTo once genv env prog l comps sub size) cs s A ∧
      (implSysProb genv prog l comps sub iface size).Does (ImplRunsTo once genv env prog l comps sub size)
        (.trial x out fun i => z i) A S ∧
      (implSys genv env prog l comps sub).Defined (arrOf S) ∧
      ∀ i, f z i = if hi : i < size ((implWorld genv prog).name r) then S ((implWorld genv prog).name r) ⟨i, hi⟩ else 0)
    (hsign : ∀ i < N, ρ i (x1 i) * ρ i (x2 i) ≤ 0)
    (hcont : ∀ i < N, ContinuousOn (ρ i) (Set.uIcc (x1 i) (x2 i))) :
    ∃ (z : Arr) (S : Store (FlatArr size)), (∀ j, z j ∈ Set.uIcc (x1 j) (x2 j)) ∧
      (∀ n ∈ iface.outs ++ iface.ins, S n = Function.update x out (fun i => z i) n) ∧
      (∀ n, n ∉ iface.outs ++ iface.ins → (∀ c ∈ implFlat genv prog l comps sub, n ∉ wr c) → S n = s n) ∧
      (implSys genv env prog l comps sub).Solved (arrOf S) ∧
      ∀ i (hi : i < N), S ((implWorld genv prog).name r) ⟨i, hi.trans_le hN⟩ = 0 ∧
        |bisect f 100 x1 x2 i - z i| ≤ |x2 i - x1 i| / 2 ^ 101 := by
  have hrun : ∀ z, (∀ j, z j ∈ Set.uIcc (x1 j) (x2 j)) → ∃ S : Store (FlatArr size),
      (∀ n ∈ iface.outs ++ iface.ins, S n = Function.update x out (fun i => z i) n) ∧
      (∀ n, n ∉ iface.outs ++ iface.ins → (∀ c ∈ implFlat genv prog l comps sub, n ∉ wr c) → S n = s n) ∧
      (implSys genv env prog l comps sub).Solved (arrOf S) ∧
      ∀ i, f z i = if hi : i < size ((implWorld genv prog).name r) then
        S ((implWorld genv prog).name r) ⟨i, hi⟩ else 0 := by
    intro z hz
    obtain ⟨cs, A, S, hcs, hA, hS, hd, h1⟩ := hf z hz
    obtain ⟨a, b, c⟩ := c75_feedback_trial h hsub hq hcs x ho (fun i => z i) hA hS hd
    exact ⟨S, a, b, c, h1⟩
  obtain ⟨z, hz, h'⟩ := c48_roots (f := f) (ρ := ρ) x1 x2 N (fun z hz i hlt => by
    obtain ⟨S, a, b, c, h1⟩ := hrun z hz
    rw [h1 i, dif_pos (hlt.trans_le hN)]
    exact hρ z S hz a b c i hlt) hsign hcont 100
  obtain ⟨S, a, b, c, h1⟩ := hrun z hz
  exact ⟨z, S, hz, a, b, c, fun i hi => ⟨by rw [hρ z S hz a b c i hi]; exact (h' i hi).1, (h' i hi).2⟩⟩

end

end OM

import Verif.Props.ImplProgram
import Verif.Props.Nested

/-!
# Implicit components with subsystems (C75)

The group of an implicit component may have independent variables and subsystems: components, or groups with groups
inside. The internal problem runs all of them, whatever it was used for before, computes the residuals of the program and
differentiates them.
-/

namespace OM
open Spec

/-- All components of the internal problem, in the order in which they are run; `sub s` is what was added as the subsystem
that has become object `s`. -/
noncomputable def implFlat (genv : GEnv) (prog : List ImplStmt) (l : Layout) (comps : List Ref) (sub : Ref → System) :
    List (List (String × Built)) :=
  comps.flatMap fun u => if (implWorld genv prog).kind u = .subsystem then (sub u).flat
    else [l.outsOf (implWorld genv prog) (wires genv (implOps prog)) u]

/-- An internal problem with these components, by position. -/
noncomputable abbrev flatProb (size : String → Nat) (cs : List (List (String × Built))) (given : List String) :
    ImplProb (FlatArr size) :=
  ⟨List.range cs.length, flatComp size cs, given⟩

/-- The internal problem. -/
noncomputable abbrev implSysProb (genv : GEnv) (prog : List ImplStmt) (l : Layout) (comps : List Ref) (sub : Ref → System)
    (iface : ImplInterface) (size : String → Nat) : ImplProb (FlatArr size) :=
  flatProb size (implFlat genv prog l comps sub) (iface.outs ++ iface.ins)

/-- The explicit group with an input for every implicit output, and the same subsystems. -/
noncomputable abbrev implSys (genv : GEnv) (env : SetupEnv) (prog : List ImplStmt) (l : Layout) (comps : List Ref)
    (sub : Ref → System) : System :=
  .group genv env (explicitOf genv prog) l comps sub

/-- A call that the component makes: the bisection tries values of its outputs. -/
def ImplCall.Of {V : String → Type} (outs : List String) : ImplCall V → Prop
  | .trial _ out _ => out ∈ outs
  | _ => True

/-- What is computed depends only on what is given. -/
theorem eval_agree {V : String → Type} {N : Nat → Prop} {comp : Nat → Comp V} {init init' : Store V}
    (h : ∀ n, (∀ u, N u → n ∉ (comp u).writes) → init n = init' n) {n : String} {v : V n}
    (he : Eval N comp init n v) : Eval N comp init' n v := by
  induction he with
  | given n hno =>
    rw [h n hno]
    exact .given n hno
  | computed u n hu hm x hx ih => exact .computed u n hu hm x ih

section
variable {size : String → Nat}

/-- Calls change neither the independent variables nor the inputs of a system, except those that are set. -/
theorem history_kept (s : System) {outs ins : List String} (S : Store (FlatArr size))
    {cs : List (ImplCall (FlatArr size))} (hcs : ∀ c ∈ cs, c.Of outs) {n : String} (hn : s.Given n)
    (hno : n ∉ outs ++ ins) : (flatProb size s.flat (outs ++ ins)).history S cs n = S n := by
  induction cs generalizing S with
  | nil => rfl
  | cons c cs ih =>
    refine (ih ((flatProb size s.flat (outs ++ ins)).after S c) fun c hc => hcs c (by simp [hc])).trans ?_
    have hset : ∀ x, (flatProb size s.flat (outs ++ ins)).setValues x S n = S n := fun x => if_neg hno
    have h1 := hcs c (by simp)
    cases c with
    | residuals x => exact (run_given s _ hn).trans (hset x)
    | trial x out b =>
      refine (run_given s _ hn).trans ?_
      have hne : n ≠ out := by
        rintro rfl
        exact hno (List.mem_append.2 (Or.inl h1))
      simp only [Store.set, Function.update, dif_neg hne]
      exact hset x
    | linearize x => exact hset x

/-- Two runs of a system with the same independent variables and inputs give the same values. -/
theorem run_agree (s : System) (h : s.Ok size) {init init' : Store (FlatArr size)} (hi : ∀ n, s.Given n → init n = init' n) :
    runAll (s.all.map (s.comps size)) init = runAll (s.all.map (s.comps size)) init' := by
  obtain ⟨h1, -, -⟩ := ok_flat s h
  funext n
  refine eval_unique (flat_own h1) (eval_agree (init := init) ?_
    (runAll_eval List.nodup_range (flat_own h1) (flat_reads h1) init n))
    (runAll_eval List.nodup_range (flat_own h1) (flat_reads h1) init' n)
  intro n hn
  refine hi n fun c hc => ?_
  obtain ⟨k, hk, rfl⟩ := List.getElem_of_mem hc
  have := hn k (by simpa using hk)
  simp only [flatComp, outsComp, getD_lt hk] at this
  exact this

end

section
variable {genv : GEnv} {env : SetupEnv} {prog : List Stmt} {l : Layout} {comps : List Ref} {sub : Ref → System}
  {size : String → Nat}

/-- An input that the user got was declared. -/
theorem input_declared {ops : List Op} (hv : ValidFrom genv (World.init genv) ops) {v : Ref} (hr : Returned genv ops v)
    (hk : (final genv ops).kind v = .input) : ∃ a nm b, ops = a ++ .declareInput nm :: b ∧ v = (final genv a).next := by
  obtain ⟨a, op, b, e, ho⟩ := hr
  rw [e] at hv
  obtain ⟨_, h3, h4⟩ := made_kind hv ho
  rw [← e, hk] at h3
  cases op with
  | declareInput nm => exact ⟨a, nm, b, e, ho⟩
  | createIndep nm => simp only at h4; rw [← h3] at h4; cases h4
  | createOutput nm => simp only at h4; rw [← h3] at h4; cases h4
  | combine nm => simp only at h4; rw [← h3] at h4; cases h4
  | getItem nm => simp only at h4; rw [← h3] at h4; cases h4
  | _ => exact h4.elim

/-- What the components of a group write are its variables, and outputs of subsystems that were added. -/
theorem group_writes' (h : (System.group genv env prog l comps sub).OkOn size) {c : List (String × Built)}
    (hc : c ∈ (System.group genv env prog l comps sub).flat) {n : String} (hn : n ∈ wr c) :
    (∃ v, HasVar (worldOf genv prog) v ∧ (worldOf genv prog).name v = n) ∨
      ∃ s, AddedIn genv (ops prog) s ∧ n ∈ (interface sub).subWrites s := by
  obtain ⟨h1, h2⟩ := h
  obtain ⟨u, hu, hcu⟩ := List.mem_flatMap.1 hc
  have hlt := comps_lt h1.ok h1.arranged hu
  have hm : n ∈ (compOf (interface sub) (worldOf genv prog) (wiresOf genv prog) u).writes := by
    split at hcu
    · rename_i hk
      have := (okOn_flat (sub u) (h2 u hu hk)).2.2 c hcu n hn
      unfold compOf
      rw [hk]
      exact this
    · obtain rfl := List.mem_singleton.1 hcu
      exact (compiled_realises h1 u).2 hn
  rcases mem_writes h1.ok.group.valid hlt hm with ⟨o, o1, -, o3⟩ | ⟨o1, o2⟩
  · exact Or.inl ⟨o, o1, o3⟩
  · exact Or.inr ⟨u, o1, o2⟩

end

section
variable {genv : GEnv} {env : SetupEnv} {prog : List ImplStmt} {l : Layout} {comps : List Ref} {sub : Ref → System}
  {iface : ImplInterface} {size : String → Nat}

local notation "WI" => final genv (implOps prog)
local notation "W" => final genv (ops (explicitOf genv prog))
local notation "K" => wires genv (ops (explicitOf genv prog))

/-- The component and the explicit group run the same components. -/
theorem ImplCompiled.flat_eq {m : Meaning Unit} (h : ImplCompiled genv env m prog l comps iface size) :
    implFlat genv prog l comps sub = (implSys genv env prog l comps sub).flat := by
  obtain ⟨⟨P, hs⟩, -, -⟩ := h.sims
  unfold implFlat
  simp only [System.flat]
  refine congrArg (fun f => List.flatMap f comps) (funext fun u => ?_)
  have hk : (implWorld genv prog).kind u = .subsystem ↔ (worldOf genv (explicitOf genv prog)).kind u = .subsystem :=
    (hs.kind_eq (u := u) (by decide) (by decide)).symm
  by_cases hu : (implWorld genv prog).kind u = .subsystem
  · rw [if_pos hu, if_pos (hk.1 hu)]
  · rw [if_neg hu, if_neg (mt hk.2 hu), h.outsOf]

theorem ImplCompiled.sysOk (h : ImplCompiled genv env (interface sub) prog l comps iface size)
    (hsub : ∀ s ∈ comps, (implWorld genv prog).kind s = .subsystem → (sub s).Ok size) :
    (implSys genv env prog l comps sub).Ok size := by
  obtain ⟨⟨P, hs⟩, -, -⟩ := h.sims
  exact ⟨h.part, fun s hsm hk => hsub s hsm ((hs.kind_eq (u := s) (by decide) (by decide)).1 hk)⟩

theorem ImplCompiled.sysOkOn (h : ImplCompiled genv env (interface sub) prog l comps iface size)
    (hsub : ∀ s ∈ comps, (implWorld genv prog).kind s = .subsystem → (sub s).OkOn size) :
    (implSys genv env prog l comps sub).OkOn size := by
  obtain ⟨⟨P, hs⟩, -, -⟩ := h.sims
  exact ⟨h.part.toCompiledOn, fun s hsm hk => hsub s hsm ((hs.kind_eq (u := s) (by decide) (by decide)).1 hk)⟩

/-- No subsystem computes an input or output of the component. -/
theorem ImplCompiled.unwrittenSub {m : Meaning Unit} (h : ImplCompiled genv env m prog l comps iface size) {n : String}
    (hn : n ∈ iface.outs ++ iface.ins) {s : Ref} (hs' : AddedIn genv (ops (explicitOf genv prog)) s) :
    n ∉ m.subWrites s := by
  obtain ⟨⟨P, hs⟩, -, -⟩ := h.sims
  obtain ⟨i1, i2, -, -⟩ := h.iface_iff
  have hv := h.program.group.valid
  rcases List.mem_append.1 hn with hn | hn
  · obtain ⟨r, hr, rfl⟩ := (i1 n).1 hn
    obtain ⟨-, -, -, out, -, h1, -, h2⟩ := h.resInv.mem r hr
    rw [← h2]
    exact h.outs out h1 s hs'
  · obtain ⟨r, hr, -, x, hf, hx, rfl⟩ := (i2 n).1 hn
    obtain ⟨c, -, hc⟩ := Relation.TransGen.tail'_iff.1 (remove_needs hx)
    have hkx : (WI).kind x = .input := hf.1
    by_cases hp : P x
    · obtain ⟨o, h1, h2⟩ := hs.out x hp
      show (WI).name x ∉ _
      rw [← h2]
      exact h.outs o h1 s hs'
    · have hcx : x ∈ (W).deps c := hs.edge hp hc
      have hk : (W).kind x = .input := (hs.kind_same (by rw [hkx]; decide)).trans hkx
      have h0 := (h.group.ok.range c x hc).1
      have hd : (WI).deps x = [] := by
        have := hf.2
        rwa [remove_deps (by omega)] at this
      have hret := inputs_returned hv h.program.group.safe h.program.uses h.program.feedback hcx hk
      obtain ⟨a, nm, b, e, rfl⟩ := input_declared hv hret hk
      have hn : (WI).name (final genv a).next = nm := by
        rw [← hs.name, e]
        rw [e] at hv
        exact input_name hv
      show (WI).name (final genv a).next ∉ _
      rw [hn]
      intro hw
      obtain ⟨r', h1, h2, -⟩ : ∃ r ∈ (W).deps (final genv a).next, AddedIn genv a r ∧ (r = s ∨ s ∈ (W).deps r) := by
        have h1 := h.program.group.safe
        have h2 := h.program.uses
        have h3 := h.program.feedback
        have h4 := (h.program.inputs a nm b e).2 s hs' hw
        rw [e] at hv h1 h2 h3 ⊢
        exact input_after_direct hv h1 h2 h3 h4
      have kr : (W).kind r' = .subsystem := by
        have hv' := hv
        rw [e] at hv' ⊢
        exact addedIn_kind hv' h2
      have pr : ¬ P r' := hs.not (by rw [(hs.kind_eq (by decide) (by decide)).1 kr]; simp [Kind.isLeaf])
      have := (hs.deps _ r' hp pr).1 h1
      rw [hd] at this
      cases this

/-- The values of the inputs and outputs of the component are not overwritten. -/
theorem ImplCompiled.sysGiven (h : ImplCompiled genv env (interface sub) prog l comps iface size)
    (hsub : ∀ s ∈ comps, (implWorld genv prog).kind s = .subsystem → (sub s).OkOn size) {n : String}
    (hn : n ∈ iface.outs ++ iface.ins) : (implSys genv env prog l comps sub).Given n := by
  intro c hc hw
  have hok := h.sysOkOn hsub
  rcases group_writes' hok hc hw with ⟨v, h1, h2⟩ | ⟨s, h1, h2⟩
  · exact h.unwritten hn h1 h2
  · exact h.unwrittenSub hn h1 h2

/-- The run that computes the residuals, as a run of the explicit group. -/
theorem ImplCompiled.sys_after {m : Meaning Unit} (h : ImplCompiled genv env m prog l comps iface size)
    (s x : Store (FlatArr size)) :
    (implSysProb genv prog l comps sub iface size).after s (.residuals x) =
      runAll ((implSys genv env prog l comps sub).all.map ((implSys genv env prog l comps sub).comps size))
        ((implSysProb genv prog l comps sub iface size).setValues x s) := by
  show runAll ((List.range (implFlat genv prog l comps sub).length).map (flatComp size (implFlat genv prog l comps sub))) _ = _
  rw [h.flat_eq]

/-- The value with which a run starts of what no component computes. -/
theorem ImplCompiled.sys_start {m : Meaning Unit} (h : ImplCompiled genv env m prog l comps iface size)
    (s x : Store (FlatArr size)) {cs : List (ImplCall (FlatArr size))} (hcs : ∀ c ∈ cs, c.Of iface.outs) {n : String}
    (hn : (implSys genv env prog l comps sub).Given n) :
    let p := implSysProb genv prog l comps sub iface size
    p.setValues x (p.history s cs) n = if n ∈ iface.outs ++ iface.ins then x n else s n := by
  intro p
  show (if n ∈ iface.outs ++ iface.ins then x n else p.history s cs n) = _
  by_cases hm : n ∈ iface.outs ++ iface.ins
  · rw [if_pos hm, if_pos hm]
  · rw [if_neg hm, if_neg hm]
    show (flatProb size (implFlat genv prog l comps sub) (iface.outs ++ iface.ins)).history s cs n = s n
    rw [h.flat_eq]
    exact history_kept _ s hcs hn hm

/-- **C75, residuals**, with subsystems. Whatever the component was used for before, `apply_nonlinear` with the values `x`
of its inputs and outputs raises no exception and keeps these values. Everything else that no component computes keeps
the value from before: the independent variables of all groups, and the inputs that are not inputs of the component
(C53). The arrays that are computed satisfy the equations of the program and of all groups in it, if no call is evaluated
outside its domain. All residuals are among them. -/
theorem c75_system_residuals (h : ImplCompiled genv env (interface sub) prog l comps iface size)
    (hsub : ∀ s ∈ comps, (implWorld genv prog).kind s = .subsystem → (sub s).Ok size) (s : Store (FlatArr size))
    {cs : List (ImplCall (FlatArr size))} (hcs : ∀ c ∈ cs, c.Of iface.outs) (x : Store (FlatArr size)) :
    let p := implSysProb genv prog l comps sub iface size
    let S := p.after (p.history s cs) (.residuals x)
    (implSys genv env prog l comps sub).Defined (arrOf S) →
    runAllE ((implFlat genv prog l comps sub).map (outsCompE size)) (p.setValues x (p.history s cs)) = .ok S ∧
    (∀ n ∈ iface.outs ++ iface.ins, S n = x n) ∧
    (∀ n, n ∉ iface.outs ++ iface.ins → (∀ c ∈ implFlat genv prog l comps sub, n ∉ wr c) → S n = s n) ∧
    (implSys genv env prog l comps sub).Solved (arrOf S) ∧
    ∀ r ∈ residualsOf genv prog, Valued genv (explicitOf genv prog) comps r.1 := by
  intro p S hd
  have hok := h.sysOk hsub
  have hS : S = _ := h.sys_after (sub := sub) (p.history s cs) x
  have hsol : (implSys genv env prog l comps sub).Solved (arrOf S) := by
    refine fixedAll_solved _ hok.on ?_ hd
    rw [hS]
    exact run_fixedAll _ hok _
  have hgiv : ∀ n, (implSys genv env prog l comps sub).Given n → S n = p.setValues x (p.history s cs) n := fun n hn => by
    rw [hS]
    exact run_given _ _ hn
  refine ⟨?_, fun n hn => ?_, fun n hn hw => ?_, hsol, fun r hr => (h.valued hr).1⟩
  · obtain ⟨S', r1, r2, -⟩ := c70_values _ hok (arrOf_zero S) hsol (init := p.setValues x (p.history s cs))
      (fun n hn i => by rw [← arrOf_eq, hgiv n hn])
    rw [h.flat_eq (sub := sub), ← run_flat _ (ok_flat _ hok).2.1, r1]
    congr 1
    funext n i
    rw [r2, ← arrOf_eq]
  · rw [hgiv n (h.sysGiven (fun s hs hk => (hsub s hs hk).on) hn)]
    exact if_pos hn
  · rw [h.flat_eq] at hw
    rw [hgiv n hw, h.sys_start (sub := sub) s x hcs hw, if_neg hn]

/-- **C75, values**, with subsystems. If the arrays `arr` satisfy the equations of the program and of all groups in it,
are those of `x` for the inputs and implicit outputs, and those from before for everything else that is not computed,
then the component computes them, among them the residuals. -/
theorem c75_system_values (h : ImplCompiled genv env (interface sub) prog l comps iface size)
    (hsub : ∀ s ∈ comps, (implWorld genv prog).kind s = .subsystem → (sub s).Ok size) (s : Store (FlatArr size))
    {cs : List (ImplCall (FlatArr size))} (hcs : ∀ c ∈ cs, c.Of iface.outs) (x : Store (FlatArr size))
    {arr : String → Nat → ℝ} (hz : ∀ n i, size n ≤ i → arr n i = 0)
    (hs : (implSys genv env prog l comps sub).Solved arr)
    (hx : ∀ n ∈ iface.outs ++ iface.ins, ∀ i, x n i = arr n i)
    (hi : ∀ n, n ∉ iface.outs ++ iface.ins → (∀ c ∈ implFlat genv prog l comps sub, n ∉ wr c) → ∀ i, s n i = arr n i) :
    let p := implSysProb genv prog l comps sub iface size
    let S := p.after (p.history s cs) (.residuals x)
    runAllE ((implFlat genv prog l comps sub).map (outsCompE size)) (p.setValues x (p.history s cs)) = .ok S ∧
    ∀ n i, S n i = arr n i := by
  intro p S
  have hok := h.sysOk hsub
  have hS : S = _ := h.sys_after (sub := sub) (p.history s cs) x
  obtain ⟨h1, h2⟩ := flat_values (ok_flat _ hok).1 (ok_flat _ hok).2.1 (solved_holds _ hok.on hz hs) hz
    (init := p.setValues x (p.history s cs)) (fun n hn i => by
      rw [h.sys_start (sub := sub) s x hcs hn]
      by_cases hm : n ∈ iface.outs ++ iface.ins
      · rw [if_pos hm]; exact hx n hm i
      · rw [if_neg hm]
        refine hi n hm ?_ i
        rw [h.flat_eq]
        exact hn)
  rw [← comps_map, ← hS] at h1 h2
  rw [h.flat_eq (sub := sub)]
  exact ⟨h1, h2⟩

/-- **C75, trial runs**, with subsystems. -/
theorem c75_system_trial (h : ImplCompiled genv env (interface sub) prog l comps iface size)
    (hsub : ∀ s ∈ comps, (implWorld genv prog).kind s = .subsystem → (sub s).Ok size) (s : Store (FlatArr size))
    {cs : List (ImplCall (FlatArr size))} (hcs : ∀ c ∈ cs, c.Of iface.outs) (x : Store (FlatArr size)) {out : String}
    (ho : out ∈ iface.outs) (b : FlatArr size out)
    {arr : String → Nat → ℝ} (hz : ∀ n i, size n ≤ i → arr n i = 0)
    (hs : (implSys genv env prog l comps sub).Solved arr)
    (hx : ∀ n ∈ iface.outs ++ iface.ins, ∀ i, Function.update x out b n i = arr n i)
    (hi : ∀ n, n ∉ iface.outs ++ iface.ins → (∀ c ∈ implFlat genv prog l comps sub, n ∉ wr c) → ∀ i, s n i = arr n i) :
    let p := implSysProb genv prog l comps sub iface size
    ∀ n i, p.after (p.history s cs) (.trial x out b) n i = arr n i := by
  intro p n i
  rw [after_trial p _ x (List.mem_append.2 (Or.inl ho)) b]
  exact (c75_system_values h hsub s hcs (Function.update x out b) hz hs hx hi).2 n i

/-- **C75, Jacobian**, with subsystems. If the last call before `linearize` asked for the residuals at the same inputs and
outputs, and no call of the program or of a group in it is evaluated outside its domain there, then the system that
`compute_totals` solves with the partials of all components has exactly one solution, and it is the derivative of the
residuals by the inputs and outputs, with everything else that is not computed held at the value from before.
Missing: any other call before `linearize` (`c73_stale_violated`). -/
theorem c75_system_jacobian_partial {P : Type} [NormedAddCommGroup P] [NormedSpace ℝ P]
    (h : ImplCompiled genv env (interface sub) prog l comps iface size)
    (hsub : ∀ s ∈ comps, (implWorld genv prog).kind s = .subsystem → (sub s).Ok size) (s : Store (FlatArr size))
    {cs : List (ImplCall (FlatArr size))} (hcs : ∀ c ∈ cs, c.Of iface.outs) (x : P → Store (FlatArr size)) (q₀ : P)
    (d₀ : (n : String) → P →L[ℝ] FlatArr size n) (hx : ∀ n ∈ iface.outs ++ iface.ins, HasFDerivAt (fun q => x q n) (d₀ n) q₀)
    (h₀ : ∀ n, n ∉ iface.outs ++ iface.ins → d₀ n = 0) :
    let p := implSysProb genv prog l comps sub iface size
    (implSys genv env prog l comps sub).Defined (arrOf (p.after (p.history s cs) (.residuals (x q₀)))) →
    ∃ d : (n : String) → P →L[ℝ] FlatArr size n,
      (∀ d', TotalSystem (· ∈ p.order) p.comp (flatPartials size (implFlat genv prog l comps sub))
        (p.history s (cs ++ [.residuals (x q₀), .linearize (x q₀)])) d₀ d' ↔ d' = d) ∧
      ∀ cs', (∀ c ∈ cs', c.Of iface.outs) → ∀ n,
        HasFDerivAt (fun q => p.after (p.history s cs') (.residuals (x q)) n) (d n) q₀ := by
  intro p hd
  have hok := h.sysOk hsub
  set σ := implSys genv env prog l comps sub with hσ
  have hfl : implFlat genv prog l comps sub = σ.flat := h.flat_eq
  have hafter : ∀ S y, p.after S (.residuals y) = runAll (σ.all.map (σ.comps size)) (p.setValues y S) := fun S y =>
    h.sys_after S y
  have hpoint : p.history s (cs ++ [.residuals (x q₀), .linearize (x q₀)]) = p.after (p.history s cs) (.residuals (x q₀)) := by
    rw [ImplProb.history, List.foldl_append]
    show p.after (p.after (p.history s cs) (.residuals (x q₀))) (.linearize (x q₀)) = _
    rw [hafter]
    funext n
    show p.setValues _ _ n = _
    by_cases hn : n ∈ p.given
    · rw [run_given _ _ (h.sysGiven (fun s hs hk => (hsub s hs hk).on) hn)]
      simp [ImplProb.setValues, hn]
    · simp [ImplProb.setValues, hn]
  have hinit : ∀ n, HasFDerivAt (fun q => p.setValues (x q) (p.history s cs) n) (d₀ n) q₀ := by
    intro n
    by_cases hn : n ∈ p.given
    · simpa [ImplProb.setValues, hn] using hx n hn
    · simp only [ImplProb.setValues, hn, if_false, h₀ n hn]
      exact hasFDerivAt_const _ _
  rw [hpoint]
  rw [hafter] at hd ⊢
  have hsol := fixedAll_solved σ hok.on (run_fixedAll σ hok (p.setValues (x q₀) (p.history s cs))) hd
  obtain ⟨h1, h2⟩ := c70_totals σ hok (arrOf_zero _) hsol (init := fun q => p.setValues (x q) (p.history s cs)) (p₀ := q₀)
    (fun n hn i => by rw [← arrOf_eq, run_given σ _ hn]) hinit
  refine ⟨runAll (σ.all.map fun k => tangentComp P (σ.comps size k) (σ.partials size k)
    (runAll (σ.all.map (σ.comps size)) (p.setValues (x q₀) (p.history s cs)))) d₀, fun d' => ?_, fun cs' hcs' n => ?_⟩
  · refine Iff.trans ?_ (h2 d')
    have key : ∀ F, F = σ.flat → (TotalSystem (· ∈ List.range F.length) (flatComp size F) (flatPartials size F)
        (runAll (σ.all.map (σ.comps size)) (p.setValues (x q₀) (p.history s cs))) d₀ d' ↔
        TotalSystem (· ∈ σ.all) (σ.comps size) (σ.partials size)
        (runAll (σ.all.map (σ.comps size)) (p.setValues (x q₀) (p.history s cs))) d₀ d') := by
      rintro _ rfl
      exact Iff.rfl
    exact key _ hfl
  · have hfun : (fun q => p.after (p.history s cs') (.residuals (x q)) n) =
        fun q => runAll (σ.all.map (σ.comps size)) (p.setValues (x q) (p.history s cs)) n := by
      funext q
      rw [hafter]
      refine congrFun (run_agree σ hok fun n hn => ?_) n
      rw [h.sys_start (sub := sub) s (x q) hcs hn, h.sys_start (sub := sub) s (x q) hcs' hn]
    rw [hfun]
    exact h1 n

/-- **C75, solution**, with subsystems. If the component has a bracketed output and its residual is, elementwise, a
continuous function that changes sign between the brackets, then the array that `solve_nonlinear` stores is within
`|x2 - x1| / 2 ^ 101` of an array for which the equations of the program and of all groups in it hold with residual zero.
Missing: residuals that are not elementwise (`c48_coupled`), more than one output (`c49_two_outputs`). -/
theorem c75_system_solved_partial (h : ImplCompiled genv env (interface sub) prog l comps iface size)
    (hsub : ∀ s ∈ comps, (implWorld genv prog).kind s = .subsystem → (sub s).Ok size) (s : Store (FlatArr size))
    (x : Store (FlatArr size)) {out : String} (ho : out ∈ iface.outs) {r : Ref} (_ : (r, out) ∈ residualsOf genv prog)
    (x1 x2 : Arr) {arr : Arr → String → Nat → ℝ}
    (hz : ∀ z, (∀ j, z j ∈ Set.uIcc (x1 j) (x2 j)) → ∀ n i, size n ≤ i → arr z n i = 0)
    (hs : ∀ z, (∀ j, z j ∈ Set.uIcc (x1 j) (x2 j)) → (implSys genv env prog l comps sub).Solved (arr z))
    (hx : ∀ z : Arr, (∀ j, z j ∈ Set.uIcc (x1 j) (x2 j)) →
      ∀ n ∈ iface.outs ++ iface.ins, ∀ i, (Function.update x out fun i => z i) n i = arr z n i)
    (hi : ∀ z, (∀ j, z j ∈ Set.uIcc (x1 j) (x2 j)) → ∀ n, n ∉ iface.outs ++ iface.ins →
      (∀ c ∈ implFlat genv prog l comps sub, n ∉ wr c) → ∀ i, s n i = arr z n i)
    {ρ : Nat → ℝ → ℝ} {N : Nat} (hN : N ≤ size ((implWorld genv prog).name r))
    (hρ : ∀ z, (∀ j, z j ∈ Set.uIcc (x1 j) (x2 j)) → ∀ i < N, arr z ((implWorld genv prog).name r) i = ρ i (z i))
    (f : Arr → Arr)
    (hf : ∀ z, (∀ j, z j ∈ Set.uIcc (x1 j) (x2 j)) → ∃ cs : List (ImplCall (FlatArr size)),
      (∀ c ∈ cs, c.Of iface.outs) ∧ ∀ i, f z i = if hi : i < size ((implWorld genv prog).name r) then
      (implSysProb genv prog l comps sub iface size).after ((implSysProb genv prog l comps sub iface size).history s cs)
        (.trial x out fun i => z i) ((implWorld genv prog).name r) ⟨i, hi⟩ else 0)
    (hsign : ∀ i < N, ρ i (x1 i) * ρ i (x2 i) ≤ 0)
    (hcont : ∀ i < N, ContinuousOn (ρ i) (Set.uIcc (x1 i) (x2 i))) :
    ∃ z : Arr, (∀ j, z j ∈ Set.uIcc (x1 j) (x2 j)) ∧ ∀ i < N, arr z ((implWorld genv prog).name r) i = 0 ∧
      |bisect f 100 x1 x2 i - z i| ≤ |x2 i - x1 i| / 2 ^ 101 := by
  obtain ⟨z, hzb, h'⟩ := c48_roots (f := f) (ρ := ρ) x1 x2 N (fun z hzb i hlt => by
    obtain ⟨cs, hcs, h1⟩ := hf z hzb
    rw [h1 i, dif_pos (hlt.trans_le hN), ← hρ z hzb i hlt]
    exact c75_system_trial h hsub s hcs x ho _ (hz z hzb) (hs z hzb) (hx z hzb) (hi z hzb) _ ⟨i, hlt.trans_le hN⟩) hsign hcont 100
  exact ⟨z, hzb, fun i hi => ⟨by rw [hρ z hzb i hi]; exact (h' i hi).1, (h' i hi).2⟩⟩

/-- **C75, what is exposed.** Every input that a component of the group reads is an input or output of the implicit
component, unless a subsystem was added before the input was declared (C53). -/
theorem c75_system_exposed_partial {m : Meaning Unit} (h : ImplCompiled genv env m prog l comps iface size) {u v : Ref}
    (hu : u ∈ comps) (hv : v ∈ (WI).deps u) (hk : (WI).kind v = .input)
    (h0 : ∀ a nm b, implOps prog = a ++ .declareInput nm :: b → v = (final genv a).next → ∀ n, Op.addSubsystem n ∉ a) :
    (WI).name v ∈ iface.outs ++ iface.ins := by
  obtain ⟨i1, i2, -, -⟩ := h.iface_iff
  obtain ⟨hn0, -⟩ := (h.setups.2.1 u).1 hu
  have hlt := h.group.ok.range u v hv
  have hedge : v ∈ (implWorld genv prog).deps u := by rw [remove_deps (h.notRoot hu)]; exact hv
  obtain ⟨e, he, hreach⟩ := Relation.TransGen.head'_iff.1 hn0
  obtain ⟨r, hr, rfl⟩ := List.mem_map.1 ((remove_root e).1 he).2
  by_cases hnm : (WI).name v = r.2
  · exact List.mem_append.2 (Or.inl ((i1 _).2 ⟨r, hr, hnm⟩))
  · refine List.mem_append.2 (Or.inr ((i2 _).2 ⟨r, hr, hnm, v, ⟨hk, ?_⟩, Relation.TransGen.tail' hreach hedge, rfl⟩))
    rw [remove_deps (by omega)]
    refine List.eq_nil_iff_forall_not_mem.2 fun y hy => ?_
    obtain ⟨a, nm, b, e, hv', a1, nm1, a2, rfl, -⟩ := input_deps h.group.valid h.group.safe hk hy
    exact h0 _ nm b e hv' nm1 (by simp)

end
end OM

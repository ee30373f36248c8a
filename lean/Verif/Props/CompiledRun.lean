import Verif.Props.CompiledPrograms

/-!
# What OpenMDAO computes solves the program (C69)

`c69_values` starts from arrays that solve the equations of the program. Here nothing is assumed about such arrays:
the arrays that OpenMDAO computes from arbitrary values of the inputs and independent variables solve the equations,
as long as no call is evaluated outside its domain, and they are the only arrays that do.
-/

namespace OM
open Spec

/-- The array that a store holds for an object. -/
noncomputable def held (l : Layout) (w : World) {size : String → Nat} (S : Store (FlatArr size)) (u : Ref) (i : Nat) : ℝ :=
  if h : i < size (w.name u) ∧ i < prodShape (l.shape u) then S (w.name u) ⟨i, h.1⟩ else 0

section
variable {genv : GEnv} {env : SetupEnv} {m : Meaning Unit} {prog : List Stmt} {l : Layout} {comps : List Ref} {size : String → Nat}

local notation "W" => final genv (ops prog)
local notation "K" => wires genv (ops prog)

theorem held_eq (h : CompiledOn genv env m prog l comps size) (S : Store (FlatArr size)) {u : Ref}
    (hr : Returned genv (ops prog) u) (i : Fin (size ((W).name u))) : S ((W).name u) i = held l W S u i := by
  unfold held
  rw [dif_pos ⟨i.2, h.size u hr ▸ i.2⟩]

theorem held_zero (S : Store (FlatArr size)) (u : Ref) (i : Nat) (hi : prodShape (l.shape u) ≤ i) :
    held l W S u i = 0 := by
  unfold held
  rw [dif_neg (by omega)]

/-- The names of inputs and independent variables are written by no component. -/
theorem given_unwritten (h : CompiledPart genv env m prog l comps size) {v : Ref} (hr : Returned genv (ops prog) v)
    (hk : (W).kind v = .input ∨ (W).kind v = .indep) {u : Ref} (hu : u ∈ comps) :
    (W).name v ∉ (l.comp W K size u).writes := by
  rcases comps_cases h.toCompiledOn hu with ⟨-, h1⟩ | ⟨refs, hc⟩
  · simp [Layout.comp, h1, outsComp]
  · intro hn
    obtain ⟨p, hp, hpn⟩ := List.mem_map.1 hn
    obtain ⟨v', n1, r1, -, k1, k2, -⟩ := hc.out p hp
    obtain rfl : v' = v := returned_own h r1 hr k1 (by rw [← n1, hpn])
    rcases hk with hk | hk
    · exact k1 hk
    · exact k2 hk

/-- The run leaves inputs and independent variables alone. -/
theorem run_starts (h : CompiledPart genv env m prog l comps size) (init : Store (FlatArr size)) :
    Starts genv prog init (held l W (runAll (comps.map (l.comp W K size)) init)) := by
  intro u hr hk i
  rw [← held_eq h.toCompiledOn _ hr i]
  exact congrFun (runAll_untouched comps init fun v hv => given_unwritten h hr hk hv).symm i

/-- What a component reads. -/
theorem held_reads (h : CompiledOn genv env m prog l comps size) (S : Store (FlatArr size)) {u : Ref} {refs : List Ref}
    {outs : List (String × Built)} (hc : Computes genv prog l comps u outs refs) :
    ∀ v ∈ refs, lookup (reads := (insOf outs).map Prod.fst) (fun j => S ((insOf outs).map Prod.fst)[j])
      ((W).name v) = held l W S v :=
  fun v hv => lookup_val h (fun u i hi => held_zero S u i hi) (hc.insOf_wired.2.2 v hv) (hc.needs v hv).1
    fun i => held_eq h S (hc.needs v hv).1 i

/-- The arrays in `S` are what the components compute from them. -/
def Fixed (l : Layout) (w : World) (k : Wires) (comps : List Ref) {size : String → Nat} (S : Store (FlatArr size)) : Prop :=
  ∀ u ∈ comps, ∀ v B, (w.name v, B) ∈ l.outsOf w k u → ∀ i : Fin (size (w.name v)),
    S (w.name v) i = B.total (lookup (reads := (insOf (l.outsOf w k u)).map Prod.fst) fun j =>
      S ((insOf (l.outsOf w k u)).map Prod.fst)[j]) i

/-- What a component computes. -/
theorem held_entry (h : CompiledOn genv env m prog l comps size) {S : Store (FlatArr size)} (hfix : Fixed l W K comps S)
    {u v : Ref} {B : Built}
    {outs : List (String × Built)} (hu : u ∈ comps) (ho : l.outsOf W K u = outs) (hr : Returned genv (ops prog) v)
    (hB : ((W).name v, B) ∈ outs) {i : Nat} (hi : i < prodShape (l.shape v)) :
    held l W S v i =
      B.total (lookup (reads := (insOf outs).map Prod.fst) fun j => S ((insOf outs).map Prod.fst)[j]) i := by
  subst ho
  have hlt : i < size ((W).name v) := by rw [h.size v hr]; exact hi
  rw [← hfix u hu v B hB ⟨i, hlt⟩]
  exact (held_eq h _ hr ⟨i, hlt⟩).symm

/-- Arrays that the components compute from themselves solve the equations of the program. -/
theorem fixed_solves (h : CompiledOn genv env m prog l comps size) {S : Store (FlatArr size)} (hfix : Fixed l W K comps S)
    (hd : RunsDefined genv prog l.shape comps (held l W S)) : Solves genv prog l.shape comps (held l W S) := by
  have hv := h.ok.group.valid
  have hidx : ∀ {out : Ref}, AssignedTo prog out → out ∈ comps → ∃ r : Nat → ℝ,
      (∀ i < prodShape (l.shape out), held l W S out i = r i) ∧
      (∀ a key e b, prog = a ++ .setItem out key e :: b → ∀ pos, Touched (l.shape out) key pos →
        (∀ i ∈ pos, i < prodShape (l.shape out)) ∧ ∀ (k : Nat) (hk : k < pos.length),
          r pos[k] = held l W S e k) ∧
      ∀ i, (∀ a key e b, prog = a ++ .setItem out key e :: b → ∀ pos, Touched (l.shape out) key pos → i ∉ pos) →
        r i = 1 := by
    intro out ho hout
    obtain ⟨h1, h2⟩ := made_indexed h ho hout
    have hko := assignedTo_kind h ho
    have hro : Returned genv (ops prog) out := by
      obtain ⟨v, hn, hr, -, hk, -⟩ := h2.out _ (List.mem_singleton_self _)
      obtain ⟨a, key, e, b, hp⟩ := ho
      exact used_returned (a := ops a) (op := .setItem out e none) (b := ops b) h (by rw [hp, ops_append]; rfl)
        (by simp [Op.uses])
    have hin := held_reads h S h2
    have hacc := tgt_accepted h out
    obtain ⟨r, r1, r2, r3⟩ := c17_values_partial (noTrace_of_accepted hacc) (tgt_nonneg h out)
      (lookup (reads := (insOf [((W).name out, builtIndexed (l.shape out) (l.tgt out))]).map Prod.fst) fun j =>
        S
          ((insOf [((W).name out, builtIndexed (l.shape out) (l.tgt out))]).map Prod.fst)[j]) fun _ => (1 : ℝ)
    refine ⟨r, fun i hi => ?_, fun a key e b hp pos hpos => ?_, fun i hfree => ?_⟩
    · rw [held_entry h hfix hout h1 hro (List.mem_singleton_self _) hi]
      exact congrFun (total_of (B := builtIndexed (l.shape out) (l.tgt out)) r1) i
    · obtain ⟨pre, post, hs⟩ := List.append_of_mem ((tgt_mem h).2 ⟨a, key, e, b, hp, rfl⟩)
      obtain ⟨pos', p1, -, -, p4⟩ := r2 pre _ post hs (hacc pre _ post hs)
      obtain rfl := touched_unique hpos p1
      refine ⟨fun i hi => ?_, fun k hk => ?_⟩
      · obtain ⟨idx, i1, i2, -⟩ := accepted_entry (hacc pre _ post hs)
        have hn : ∀ k, key = .one (.int k) → 0 ≤ k := h.keys a out key e b hp
        rw [touched_unique hpos (tgt_touched i1 hn)] at hi
        obtain ⟨j, hj, rfl⟩ := List.mem_map.1 hi
        have := i2 j hj
        have := (tgtIndices_facts i1).nonneg hn j hj
        omega
      · rw [p4 k hk]
        exact congrFun (hin e (mem_partsTo.2 ⟨a, key, b, hp⟩)) k
    · refine r3 i fun pre x post pos hs _ hpos => ?_
      obtain ⟨a, key, e, b, hp, rfl⟩ := (tgt_mem h).1 (show x ∈ l.tgt out by rw [hs]; simp)
      exact hfree a key e b hp pos hpos
  refine ⟨fun a c b hp hu => ⟨hd a c b hp hu, fun idx hidx' => ?_⟩, ?_, ?_, ?_, ?_, fun u i hi => held_zero _ u i hi⟩
  · obtain ⟨u, hua⟩ : ∃ u, u = (final genv (ops a)).next := ⟨_, rfl⟩
    rw [← hua] at hu ⊢
    have e1 : ops prog = ops a ++ .combine c.refs :: ops b := by rw [hp, ops_append]; rfl
    have hr : Returned genv (ops prog) u := ⟨ops a, _, ops b, e1, hua⟩
    obtain ⟨B, h1, hB, hsh, h2⟩ := made_expr h hp hua hu
    have hg := (c69_term (W).name l.shape _ _ c B hB).2 (h.apart a c b hp) (hd a c b hp (hua ▸ hu))
      (held_reads h S h2)
    have ho : c.outShape l.shape = l.shape u := by rw [hsh, hg.shape]
    obtain ⟨r, r1, r2⟩ := hg.value
    rw [← r2 idx hidx', ho]
    rw [ho] at hidx'
    rw [held_entry h hfix hu h1 hr (List.mem_singleton_self _) (ravel_lt hidx')]
    exact congrFun (total_of r1) _
  · intro a x key b hp u d hu hi hdc sels hsel j hj
    have e1 : ops prog = ops a ++ .getItem x :: ops b := by rw [hp, ops_append]; rfl
    have hr : Returned genv (ops prog) u := ⟨ops a, _, ops b, e1, hu⟩
    obtain ⟨hwh, hmem, history, ex, g1, g2, g3⟩ := made_item h hp hu hi
    have hc := made_decomp h (itemOf_kind hv hi).2 hdc
    rw [hwh] at hc
    have hin := held_reads h S hc x (by simp)
    rw [held_entry h hfix hdc rfl hr hmem (ravel_lt hj)]
    rw [← congrFun hin]
    have hg := builtItem_good g1 ((W).name x) (e := fun j => (lookup (reads := (insOf (l.outsOf W K d)).map Prod.fst)
      fun j => S ((insOf (l.outsOf W K d)).map Prod.fst)[j]) ((W).name x)
        (ravel (l.shape x) (List.zipWith (fun l i => l.getD i 0) sels j))) (inp := lookup
        (reads := (insOf (l.outsOf W K d)).map Prod.fst) fun j => S
          ((insOf (l.outsOf W K d)).map Prod.fst)[j]) fun sels' hsel' j' _ => by rw [keySelects_unique hsel' hsel]
    rw [← g2, ← g3] at hg
    obtain ⟨r, r1, r2⟩ := hg.value
    rw [← r2 j hj]
    exact congrFun (total_of r1) _
  · intro a out e b hp hout hacc hna
    have e1 : ops prog = ops a ++ .define out e :: ops b := by rw [hp, ops_append]; rfl
    have hro := used_returned h e1 (x := out) (by simp [Op.uses])
    have hko : (W).kind out = .explicitOut := by
      have hv' := hv
      rw [e1] at hv' ⊢
      rw [kind_at hv' ((validFrom_append genv (ops a) _ _).1 hv').2.1.1.2]
      exact (define_defined hacc).1
    obtain ⟨h1, hsh, h2⟩ := made_define (comps := comps) h hp hout hacc hko hna
    have hin := held_reads h S h2 e (by simp)
    funext i
    by_cases hi : i < prodShape (l.shape out)
    · rw [held_entry h hfix hout h1 hro (List.mem_singleton_self _) hi]
      exact congrFun hin i
    · rw [held_zero _ out i (by omega), held_zero _ e i (by rw [← hsh]; omega)]
  · intro a out key e b hp hout pos hpos k hk
    obtain ⟨r, r1, r2, -⟩ := hidx ⟨a, key, e, b, hp⟩ hout
    obtain ⟨r3, r4⟩ := r2 a key e b hp pos hpos
    rw [r1 _ (r3 _ (List.getElem_mem _)), r4 k hk]
  · intro out ho hout i hi hfree
    obtain ⟨r, r1, -, r3⟩ := hidx ho hout
    rw [r1 i hi, r3 i hfree]

/-- The arrays that the components compute solve the equations of the program, if no call is evaluated outside its
domain. -/
theorem part_solves (h : CompiledPart genv env m prog l comps size) (init : Store (FlatArr size))
    (hd : RunsDefined genv prog l.shape comps (held l W (runAll (comps.map (l.comp W K size)) init))) :
    Solves genv prog l.shape comps (held l W (runAll (comps.map (l.comp W K size)) init)) ∧
    Starts genv prog init (held l W (runAll (comps.map (l.comp W K size)) init)) :=
  ⟨fixed_solves h.toCompiledOn (fun _ hu _ _ hB i => run_entry h init hu hB i) hd, run_starts h init⟩

/-- **C69**, existence. Whatever the inputs and independent variables are, the arrays that OpenMDAO computes solve the
equations of the program, if no call is evaluated outside its domain. The outputs of the group are among the components
whose equations these are. -/
theorem c69_solves (h : Compiled genv env noSub prog l comps size) (init : Store (FlatArr size))
    (hd : RunsDefined genv prog l.shape comps (held l W (runAll (comps.map (l.comp W K size)) init))) :
    Solves genv prog l.shape comps (held l W (runAll (comps.map (l.comp W K size)) init)) ∧
    Starts genv prog init (held l W (runAll (comps.map (l.comp W K size)) init)) ∧
    ∀ u, Returned genv (ops prog) u → (W).kind u = .explicitOut → u ∈ comps :=
  ⟨(part_solves h.part init hd).1, (part_solves h.part init hd).2, fun _ hr hk => output_comps h.ok h.setup hr hk⟩

end

/-! ## Domains are open -/

section
variable {P : Type} [TopologicalSpace P] {p₀ : P} {shape : Ref → List Nat}

/-- A property of all entries of an array holds nearby if each does. -/
theorem eventually_inBounds {s : List Nat} {Q : P → List Nat → Prop}
    (h : ∀ idx, InBounds s idx → ∀ᶠ p in nhds p₀, Q p idx) : ∀ᶠ p in nhds p₀, ∀ idx, InBounds s idx → Q p idx := by
  have hfin : {idx | InBounds s idx}.Finite := by
    refine ((Set.finite_lt_nat (prodShape s)).image (unravel s)).subset fun idx hidx => ?_
    exact ⟨ravel s idx, ravel_lt hidx, unravel_ravel hidx⟩
  exact (Filter.eventually_all_finite hfin).2 h

theorem powOk_open {x : P → ℝ} {e : ℝ} (hx : ContinuousAt x p₀) (h : PowOk (x p₀) e) :
    ∀ᶠ p in nhds p₀, PowOk (x p) e := by
  rcases h with h | ⟨hn, h | h⟩
  · filter_upwards [hx.eventually (lt_mem_nhds h)] with p hp using Or.inl hp
  · filter_upwards [hx.eventually_ne h] with p hp using Or.inr ⟨hn, Or.inl hp⟩
  · exact Filter.Eventually.of_forall fun _ => Or.inr ⟨hn, Or.inr h⟩

theorem unary_dom_open {f : Unary} {x : P → ℝ} (hx : ContinuousAt x p₀) (h : f.dom (x p₀)) :
    ∀ᶠ p in nhds p₀, f.dom (x p) := by
  have hcos : ContinuousAt (fun p => Real.cos (x p)) p₀ := Real.continuous_cos.continuousAt.comp hx
  have hsin : ContinuousAt (fun p => Real.sin (x p)) p₀ := Real.continuous_sin.continuousAt.comp hx
  cases f
  case tan => exact hcos.eventually_ne h
  case sec => exact hcos.eventually_ne h
  case cosec => exact hsin.eventually_ne h
  case cotan => exact hsin.eventually_ne h
  case arcsin => exact (hx.eventually (lt_mem_nhds h.1)).and (hx.eventually (gt_mem_nhds h.2))
  case arccos => exact (hx.eventually (lt_mem_nhds h.1)).and (hx.eventually (gt_mem_nhds h.2))
  case log => exact hx.eventually (lt_mem_nhds h)
  case log10 => exact hx.eventually (lt_mem_nhds h)
  case cosech => exact hx.eventually_ne h
  case cotanh => exact hx.eventually_ne h
  all_goals exact Filter.Eventually.of_forall fun _ => trivial

theorem listSum_continuousAt {α : Type} (l : List α) {f : P → α → ℝ} (h : ∀ a ∈ l, ContinuousAt (fun p => f p a) p₀) :
    ContinuousAt (fun p => (l.map (f p)).sum) p₀ := by
  induction l with
  | nil => simpa using continuousAt_const
  | cons a l ih =>
    simp only [List.map_cons, List.sum_cons]
    exact (h a (by simp)).add (ih fun b hb => h b (by simp [hb]))

theorem pnorm_continuousAt {α : Type} (n : Nat) (l : List α) {f : P → α → ℝ}
    (h : ∀ a ∈ l, ContinuousAt (fun p => f p a) p₀) :
    ContinuousAt (fun p => Spec.pnorm n (l.map (f p))) p₀ := by
  unfold Spec.pnorm
  simp only [List.map_map]
  refine ContinuousAt.rpow_const (listSum_continuousAt l fun a ha => ?_) (Or.inr (by positivity))
  exact ((h a ha).abs).pow n

/-- A call that is defined at some arrays is defined at all arrays nearby. -/
theorem defined_open {val : P → Ref → Nat → ℝ} (hval : ∀ u i, ContinuousAt (fun p => val p u i) p₀) (c : Term)
    (h : c.Defined shape (val p₀)) : ∀ᶠ p in nhds p₀, c.Defined shape (val p) := by
  cases c with
  | div a b =>
    obtain ⟨h1, h2, h3⟩ := h
    have : ∀ᶠ p in nhds p₀, ∀ idx, InBounds (Arg.shape2 shape a b) idx →
        b.entry shape (val p) (Arg.shape2 shape a b) idx ≠ 0 := by
      refine eventually_inBounds fun idx hidx => ?_
      have hc : ContinuousAt (fun p => b.entry shape (val p) (Arg.shape2 shape a b) idx) p₀ := by
        rcases b with u | c | c
        · exact hval _ _
        · exact continuousAt_const
        · exact continuousAt_const
      exact hc.eventually_ne (h3 idx hidx)
    filter_upwards [this] with p hp using ⟨h1, h2, hp⟩
  | pow a e => exact eventually_inBounds fun idx hidx => powOk_open (hval _ _) (h idx hidx)
  | unary f a =>
    filter_upwards [eventually_inBounds fun idx hidx => unary_dom_open (hval _ _) (h.1 idx hidx)] with p hp
      using ⟨hp, h.2⟩
  | pnorm a e axes =>
    refine eventually_inBounds fun idx hidx => ?_
    have hc : ContinuousAt (fun p => (Term.pnorm a e axes).entry shape (val p) idx) p₀ := by
      cases axes with
      | none => exact pnorm_continuousAt _ _ fun i _ => hval a i
      | some ax => exact pnorm_continuousAt _ _ fun i _ => hval a _
    exact hc.eventually_ne (h idx hidx)
  | expand a s indices =>
    cases indices <;> exact Filter.Eventually.of_forall fun _ => h
  | _ => exact Filter.Eventually.of_forall fun _ => h

end

section
variable {genv : GEnv} {env : SetupEnv} {m : Meaning Unit} {prog : List Stmt} {l : Layout} {comps : List Ref} {size : String → Nat}

local notation "W" => final genv (ops prog)
local notation "K" => wires genv (ops prog)

/-- Programs are finite: if no call is evaluated outside its domain, this stays so nearby. -/
theorem runsDefined_open {P : Type} [TopologicalSpace P] {p₀ : P} {shape : Ref → List Nat} {val : P → Ref → Nat → ℝ}
    (hval : ∀ u i, ContinuousAt (fun p => val p u i) p₀) (h : RunsDefined genv prog shape comps (val p₀)) :
    ∀ᶠ p in nhds p₀, RunsDefined genv prog shape comps (val p) := by
  have : ∀ᶠ p in nhds p₀, ∀ k ∈ Finset.range prog.length, ∀ c b, prog = prog.take k ++ .expr c :: b →
      (final genv (ops (prog.take k))).next ∈ comps → c.Defined shape (val p) := by
    refine (Filter.eventually_all_finset _).2 fun k _ => ?_
    by_cases hk : ∃ c b, prog = prog.take k ++ .expr c :: b ∧ (final genv (ops (prog.take k))).next ∈ comps
    · obtain ⟨c, b, hp, hm⟩ := hk
      filter_upwards [defined_open hval c (h _ c b hp hm)] with p hd c' b' hp' _
      have := List.append_cancel_left (hp.symm.trans hp')
      cases this
      exact hd
    · exact Filter.Eventually.of_forall fun p c b hp hm => absurd ⟨c, b, hp, hm⟩ hk
  filter_upwards [this] with p hd a c b hp hm
  obtain ⟨i, hi, rfl, -, -⟩ := split_prog hp
  exact hd i (by simpa using hi) c b hp hm

/-- Let the inputs and independent variables be differentiable functions of
`p` at `p₀`, and let no call be evaluated outside its domain when the components are run at `p₀`. Then for all `p`
near `p₀` the components run without exceptions and compute arrays that solve the equations of the program, and
forward accumulation through the partials, the only solution of OpenMDAO's linear system of total derivatives, is the
derivative of everything that is computed. -/
theorem part_run {P : Type} [NormedAddCommGroup P] [NormedSpace ℝ P]
    (h : CompiledPart genv env m prog l comps size) {init : P → Store (FlatArr size)} {p₀ : P}
    (hd : RunsDefined genv prog l.shape comps (held l W (runAll (comps.map (l.comp W K size)) (init p₀))))
    {d₀ : (n : String) → P →L[ℝ] FlatArr size n} (hinit : ∀ n, HasFDerivAt (fun p => init p n) (d₀ n) p₀) :
    let S := fun p => runAll (comps.map (l.comp W K size)) (init p)
    let tangents := runAll (comps.map fun u => tangentComp P (l.comp W K size u) (l.partials W K size u) (S p₀)) d₀
    (∀ᶠ p in nhds p₀, runAllE (comps.map (l.compE W K size)) (init p) = .ok (S p) ∧
      Solves genv prog l.shape comps (held l W (S p)) ∧ Starts genv prog (init p) (held l W (S p))) ∧
    (∀ n, HasFDerivAt (fun p => S p n) (tangents n) p₀) ∧
    ∀ d, TotalSystem (· ∈ comps) (l.comp W K size) (l.partials W K size) (S p₀) d₀ d ↔ d = tangents := by
  intro S tangents
  obtain ⟨hs0, hi0⟩ := part_solves h (init p₀) hd
  obtain ⟨h1, h2⟩ := c56_arranged h.program (oldNames h.toCompiledOn) h.arranged h.order (compiled_realises h.toCompiledOn) (l.partials W K size) init p₀ d₀ hinit
    fun u hu => compiled_exact h hs0 hi0 hu
  refine ⟨?_, h1, h2⟩
  have hval : ∀ u i, ContinuousAt (fun p => held l W (S p) u i) p₀ := by
    intro u i
    unfold held
    by_cases hi : i < size ((W).name u) ∧ i < prodShape (l.shape u)
    · simp only [dif_pos hi]
      exact (continuousAt_pi.1 (h1 ((W).name u)).continuousAt) ⟨i, hi.1⟩
    · simp only [dif_neg hi]
      exact continuousAt_const
  filter_upwards [runsDefined_open hval hd] with p hp
  obtain ⟨hs, hi⟩ := part_solves h (init p) hp
  exact ⟨runE_ok h hs hi, hs, hi⟩

/-- **C69**, for whatever OpenMDAO computes. Let the inputs and independent variables be differentiable functions of
`p` at `p₀`, and let no call be evaluated outside its domain when the components are run at `p₀`. Then for all `p`
near `p₀` the components run without exceptions and compute arrays that solve the equations of the program, and
forward accumulation through the partials, the only solution of OpenMDAO's linear system of total derivatives, is the
derivative of everything that is computed. -/
theorem c69_run {P : Type} [NormedAddCommGroup P] [NormedSpace ℝ P]
    (h : Compiled genv env noSub prog l comps size) {init : P → Store (FlatArr size)} {p₀ : P}
    (hd : RunsDefined genv prog l.shape comps (held l W (runAll (comps.map (l.comp W K size)) (init p₀))))
    {d₀ : (n : String) → P →L[ℝ] FlatArr size n} (hinit : ∀ n, HasFDerivAt (fun p => init p n) (d₀ n) p₀) :
    let S := fun p => runAll (comps.map (l.comp W K size)) (init p)
    let tangents := runAll (comps.map fun u => tangentComp P (l.comp W K size u) (l.partials W K size u) (S p₀)) d₀
    (∀ᶠ p in nhds p₀, runAllE (comps.map (l.compE W K size)) (init p) = .ok (S p) ∧
      Solves genv prog l.shape comps (held l W (S p)) ∧ Starts genv prog (init p) (held l W (S p))) ∧
    (∀ n, HasFDerivAt (fun p => S p n) (tangents n) p₀) ∧
    ∀ d, TotalSystem (· ∈ comps) (l.comp W K size) (l.partials W K size) (S p₀) d₀ d ↔ d = tangents :=
  part_run h.part hd hinit

end

/-- The program of `Compiled` runs for every `x`. -/
example (p₀ : Fin 2 → ℝ) : ∃ l, Compiled progGEnv demoEnv noSub waveProg l [1, 2, 3, 4, 6] waveSize ∧
    RunsDefined progGEnv waveProg l.shape [1, 2, 3, 4, 6] (held l (final progGEnv (ops waveProg))
      (runAll ([1, 2, 3, 4, 6].map (l.comp (final progGEnv (ops waveProg)) (wires progGEnv (ops waveProg)) waveSize))
        (waveInit p₀))) ∧
    ∀ n, HasFDerivAt (fun p => waveInit p n) (waveSeed n) p₀ := by
  obtain ⟨l, hc, hl⟩ := wave_compiled
  refine ⟨l, hc, ?_, wave_seed p₀⟩
  intro a c b e hm
  have h1 := ((wave_solves hl p₀).expr a c b e hm).1
  obtain ⟨i, hi, rfl, he, _⟩ := split_prog e
  change i < 7 at hi
  interval_cases i <;> simp [waveProg] at he <;> subst he
  · exact ⟨fun _ _ => trivial, by simp⟩
  · exact h1
  · trivial

end OM

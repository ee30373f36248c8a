import Verif.Props.CompiledRun

/-!
# Outputs defined in terms of themselves (C74)

An output may be defined by an expression that depends on it; `define` then gives OpenMDAO a group with feedback, which
its solvers iterate. Here: what holds of the values at which such an iteration has converged.
-/

namespace OM
open Spec

section
variable {V : String → Type}

/-- After some of the components have run, a variable has its value from before or the one after the whole run. -/
theorem runAll_prefix {comp : Nat → Comp V} {p s : List Nat} (hnd : (p ++ s).Nodup) (hown : OwnNames (· ∈ p ++ s) comp)
    (S : Store V) (n : String) :
    runAll (p.map comp) S n = S n ∨ runAll (p.map comp) S n = runAll ((p ++ s).map comp) S n := by
  by_cases hn : ∃ u ∈ p, n ∈ (comp u).writes
  · right
    obtain ⟨u, hu, hn⟩ := hn
    rw [List.map_append, runAll_append]
    refine (runAll_untouched s _ fun v hv hw => ?_).symm
    obtain rfl := hown u v n (by simp [hu]) (by simp [hv]) hn hw
    exact (List.nodup_append.1 hnd).2.2 u hu u hv rfl
  · left
    exact runAll_untouched p S fun u hu hw => hn ⟨u, hu, hw⟩

/-- What the run computes for a variable. -/
theorem runAll_writes {comp : Nat → Comp V} {p s : List Nat} {u : Nat} (hnd : (p ++ u :: s).Nodup)
    (hown : OwnNames (· ∈ p ++ u :: s) comp) (S : Store V) {n : String} (hn : n ∈ (comp u).writes) :
    runAll ((p ++ u :: s).map comp) S n = (comp u).f (fun i => runAll (p.map comp) S (comp u).reads[i]) n := by
  rw [List.map_append, runAll_append, List.map_cons]
  show runAll (s.map comp) ((comp u).run (runAll (p.map comp) S)) n = _
  rw [runAll_untouched s _ fun v hv hw => ?_]
  · unfold Comp.run
    rw [if_pos hn]
  · obtain rfl := hown u v n (by simp) (by simp [hv]) hn hw
    have := (List.nodup_append.1 hnd).2.1
    exact (List.nodup_cons.1 this).1 hv

/-- Values stay as they are in a run, in whatever order, exactly if they satisfy the equations of the components. -/
theorem runAll_fixed_iff {comp : Nat → Comp V} {l : List Nat} (hnd : l.Nodup) (hown : OwnNames (· ∈ l) comp) (S : Store V) :
    runAll (l.map comp) S = S ↔
      ∀ u ∈ l, ∀ n ∈ (comp u).writes, S n = (comp u).f (fun i => S (comp u).reads[i]) n := by
  constructor
  · intro h u hu n hn
    obtain ⟨p, s, rfl⟩ := List.append_of_mem hu
    have hp : runAll (p.map comp) S = S := by
      funext n
      rcases runAll_prefix hnd hown S n with h1 | h1
      · exact h1
      · rw [h1, h]
    have := runAll_writes hnd hown S hn
    rwa [h, hp] at this
  · intro h
    clear hnd hown
    induction l with
    | nil => rfl
    | cons u l ih =>
      have h1 : (comp u).run S = S := by
        funext n
        unfold Comp.run
        split
        · rename_i hn; exact (h u (by simp) n hn).symm
        · rfl
      show runAll (l.map comp) ((comp u).run S) = S
      rw [h1]
      exact ih fun v hv => h v (by simp [hv])

/-- If repeated runs converge to values at which the components are continuous, these values stay as they are. -/
theorem iterates_fixed [∀ n, TopologicalSpace (V n)] [∀ n, T2Space (V n)] {comp : Nat → Comp V} {l : List Nat}
    (hnd : l.Nodup) (hown : OwnNames (· ∈ l) comp) {init S : Store V}
    (hlim : ∀ n, Filter.Tendsto (fun k => (runAll (l.map comp))^[k] init n) Filter.atTop (nhds (S n)))
    (hcont : ∀ u ∈ l, ∀ n ∈ (comp u).writes,
      ContinuousAt (fun x : (i : Fin (comp u).reads.length) → V (comp u).reads[i] => (comp u).f x n)
        fun i => S (comp u).reads[i]) :
    runAll (l.map comp) S = S := by
  refine (runAll_fixed_iff hnd hown S).2 fun u hu n hn => ?_
  obtain ⟨p, s, rfl⟩ := List.append_of_mem hu
  set T := runAll ((p ++ u :: s).map comp) with hT
  have hnext : ∀ n, Filter.Tendsto (fun k => T (T^[k] init) n) Filter.atTop (nhds (S n)) := by
    intro n
    have := (Filter.tendsto_add_atTop_iff_nat 1).2 (hlim n)
    simpa only [Function.iterate_succ', Function.comp] using this
  have hmid : ∀ n, Filter.Tendsto (fun k => runAll (p.map comp) (T^[k] init) n) Filter.atTop (nhds (S n)) := by
    intro n
    rw [tendsto_nhds]
    intro U hU hS
    filter_upwards [(tendsto_nhds.1 (hlim n)) U hU hS, (tendsto_nhds.1 (hnext n)) U hU hS] with k h1 h2
    rcases runAll_prefix hnd hown (T^[k] init) n with h3 | h3
    · rw [Set.mem_preimage, h3]; exact h1
    · rw [Set.mem_preimage, h3]; exact h2
  have h1 : Filter.Tendsto (fun k => T (T^[k] init) n) Filter.atTop
      (nhds ((comp u).f (fun i => S (comp u).reads[i]) n)) := by
    have hx : Filter.Tendsto (fun k (i : Fin (comp u).reads.length) => runAll (p.map comp) (T^[k] init) (comp u).reads[i])
        Filter.atTop (nhds fun i => S (comp u).reads[i]) := tendsto_pi_nhds.2 fun i => hmid _
    refine ((hcont u hu n hn).tendsto.comp hx).congr fun k => ?_
    exact (runAll_writes hnd hown (T^[k] init) hn).symm
  exact tendsto_nhds_unique (hnext n) h1

theorem iterates_untouched {comp : Nat → Comp V} (l : List Nat) (init : Store V) {n : String}
    (hn : ∀ u ∈ l, n ∉ (comp u).writes) (k : Nat) : (runAll (l.map comp))^[k] init n = init n := by
  induction k with
  | zero => rfl
  | succ k ih => rw [Function.iterate_succ_apply', runAll_untouched l _ hn, ih]

end

section
variable {genv : GEnv} {env : SetupEnv} {α : Type} {m : Meaning α} {ops : List Op} {comps : List Ref}

/-- **C74.** If running the components of a group, some outputs of which may be defined in terms of themselves, leaves
values as they are, then these values satisfy every equation the user wrote. -/
theorem c74_converged (h : ProgramCore genv env m ops) (hr : RegisteredFirst ops)
    (hc : setupGroup env (final genv ops) = .ok comps) {S : String → α}
    (hS : runAll (comps.map (compOf m (final genv ops) (wires genv ops))) (S : Store fun _ => α) = S) :
    Satisfies genv m ops S S := by
  obtain ⟨h1, h2, h3, h4, h5, h6⟩ := fixed_values h hc S ((runAll_fixed_iff (comps_iff h.group hc).1
    (fun _ _ _ hu hv => program_own h (comps_lt h (arranged_setup h.group hc) hu) (comps_lt h (arranged_setup h.group hc) hv)) S).1 hS)
  refine ⟨h1, h2, h3, h4, ?_, h6, fun _ _ => rfl⟩
  intro a out e b e1 k1
  rw [h5 a out e b e1 k1]
  congr 1
  refine List.map_congr_left fun p hp => ?_
  obtain ⟨a', b', e2, e3⟩ := mem_assignedFrom ops hp
  rw [registeredFirst_names h.group.valid hr e2, e3]

end

section
variable {genv : GEnv} {env : SetupEnv} {m : Meaning Unit} {prog : List Stmt} {l : Layout} {comps : List Ref} {size : String → Nat}

local notation "W" => final genv (ops prog)
local notation "K" => wires genv (ops prog)

theorem compiled_own (h : CompiledOn genv env m prog l comps size) : OwnNames (· ∈ comps) (l.comp W K size) :=
  realises_own h.ok h.arranged (compiled_realises h)

theorem comp_at (h : CompiledOn genv env m prog l comps size) (S : Store (FlatArr size)) {u v : Ref} {B : Built}
    (hu : u ∈ comps) (hB : ((W).name v, B) ∈ l.outsOf W K u) (i : Fin (size ((W).name v))) :
    (l.comp W K size u).f (fun i => S (l.comp W K size u).reads[i]) ((W).name v) i =
      B.total (lookup (reads := (insOf (l.outsOf W K u)).map Prod.fst) fun j =>
        S ((insOf (l.outsOf W K u)).map Prod.fst)[j]) i := by
  have hmem : (W).name v ∈ (l.outsOf W K u).map Prod.fst := List.mem_map.2 ⟨_, hB, rfl⟩
  obtain ⟨p, hp, hpn, hf⟩ := outs_find hmem
  obtain rfl : p = ((W).name v, B) := by
    rcases comps_cases h hu with ⟨-, h1⟩ | ⟨refs, hc⟩
    · rw [h1] at hB; cases hB
    · exact hc.inj p hp _ hB hpn
  show (match (l.outsOf W K u).find? (fun p => p.1 == (W).name v) with
    | none => 0
    | some p => p.2.total _ i) = _
  rw [hf]
  rfl

/-- Values that a run leaves as they are. -/
theorem compiled_fixed_iff (h : CompiledOn genv env m prog l comps size) (S : Store (FlatArr size)) :
    runAll (comps.map (l.comp W K size)) S = S ↔ Fixed l W K comps S := by
  refine (runAll_fixed_iff h.arranged.nodup (compiled_own h) S).trans ?_
  constructor
  · intro hS u hu v B hB i
    rw [← comp_at h S hu hB i]
    exact congrFun (hS u hu _ (List.mem_map.2 ⟨_, hB, rfl⟩)) i
  · intro hS u hu n hn
    rcases comps_cases h hu with ⟨-, h1⟩ | ⟨refs, hc⟩
    · simp [Layout.comp, h1, outsComp] at hn
    · obtain ⟨p, hp, hpn⟩ := List.mem_map.1 hn
      obtain ⟨v, hv1, -⟩ := hc.out p hp
      have hB : ((W).name v, p.2) ∈ l.outsOf W K u := by rw [← hv1]; exact hp
      obtain rfl : (W).name v = n := by rw [← hv1, hpn]
      funext i
      rw [comp_at h S hu hB i]
      exact hS u hu v p.2 hB i

/-- Each component can be run wherever the calls of the program are defined. -/
theorem compiled_runs (h : CompiledOn genv env m prog l comps size) {S : Store (FlatArr size)}
    (hd : RunsDefined genv prog l.shape comps (held l W S)) {u : Ref} (hu : u ∈ comps) :
    (l.compE W K size u).run S = .ok ((l.comp W K size u).run S) := by
  refine outsCompE_run fun q hq => ?_
  rcases comps_cases h hu with ⟨-, h1⟩ | ⟨refs, hc⟩
  · rw [h1] at hq; cases hq
  · obtain ⟨e, hg⟩ := hc.smooth q hq _ hd _ (held_reads h S hc)
    obtain ⟨r, r1, -⟩ := hg.value
    exact ⟨r, r1⟩

/-- **C74**, partial derivatives: the partials of the components are exact at all arrays at which the calls of the
program are defined, not only at those that solve its equations. -/
theorem c74_partials (h : CompiledOn genv env m prog l comps size) {S : Store (FlatArr size)}
    (hd : RunsDefined genv prog l.shape comps (held l W S)) {u : Ref} (hu : u ∈ comps) :
    (l.partials W K size u).ExactAt (fun i => S (l.comp W K size u).reads[i]) ∧
    ∀ p ∈ l.outsOf W K u,
      ∃ P, p.2.partials (lookup (reads := p.2.ins.map Prod.fst) fun i => S (p.2.ins.map Prod.fst)[i]) = .ok P := by
  rcases comps_cases h hu with ⟨-, h1⟩ | ⟨refs, hc⟩
  · refine ⟨fun n hn => ?_, fun p hp => ?_⟩
    · simp [Layout.comp, h1, outsComp] at hn
    · rw [h1] at hp; cases hp
  · obtain ⟨w1, w2, -⟩ := hc.insOf_wired
    refine ⟨outs_exactAt w1 (fun p hp => ?_) (fun p hp => ?_) _ fun p hp => ?_, fun p hp => ?_⟩
    · obtain ⟨v, hv, rfl⟩ := w2 p hp
      exact h.size v (hc.needs v hv).1
    · obtain ⟨v, n1, r1, -, -, -, s1, -⟩ := hc.out p hp
      rw [n1, h.size v r1, s1]
    · obtain ⟨e, hg⟩ := hc.smooth p hp _ hd _ (held_reads h S hc)
      have := hg.exact
      rw [hc.ins p hp] at this
      exact this
    · have key : ∀ ins, ins = insOf (l.outsOf W K u) → ∃ P, p.2.partials (lookup (reads := ins.map Prod.fst) fun i =>
          S (ins.map Prod.fst)[i]) = .ok P := by
        rintro _ rfl
        obtain ⟨e, hg⟩ := hc.smooth p hp _ hd _ (held_reads h S hc)
        exact hg.partials
      exact key _ (hc.ins p hp)

theorem partials_continuousAt {E : String → Type} [∀ n, NormedAddCommGroup (E n)] [∀ n, NormedSpace ℝ (E n)] {c : Comp E}
    {D : Partials c} {x : (i : Fin c.reads.length) → E c.reads[i]} (h : D.ExactAt x) {n : String} (hn : n ∈ c.writes) :
    ContinuousAt (fun y => c.f y n) x :=
  (h n hn).continuousAt

/-- Arrays that solve the equations of the program, held by a store, are left as they are. -/
theorem solves_fixed (h : CompiledOn genv env m prog l comps size) {S : Store (FlatArr size)}
    (hs : Solves genv prog l.shape comps (held l W S)) : Fixed l W K comps S := by
  intro u hu v B hB i
  rcases comps_cases h hu with ⟨-, h1⟩ | ⟨refs, hc⟩
  · rw [h1] at hB; cases hB
  · obtain ⟨v', hv1, hr, -, -, -, -, hgood⟩ := hc.out _ hB
    obtain ⟨r, r1, r2⟩ := (hgood _ hs _ (held_reads h S hc)).value
    have hv1 : (W).name v = (W).name v' := hv1
    have hlt : i.1 < prodShape (l.shape v') := by
      have := i.2
      rw [← h.size v' hr, ← hv1]; exact this
    have := r2 _ (unravel_inBounds hlt)
    rw [ravel_unravel hlt] at this
    rw [congrFun (total_of r1) i.1, this]
    have hlt' : i.1 < size ((W).name v') := by rw [h.size v' hr]; exact hlt
    rw [← held_eq h S hr ⟨i.1, hlt'⟩]
    generalize (W).name v = n at *
    subst hv1
    rfl

theorem outsCompE_eq {outs : List (String × Built)} {s s' : Store (FlatArr size)}
    (h : (outsCompE size outs).run s = .ok s') : (outsComp size outs).run s = s' := by
  unfold CompE.run outsCompE at h
  simp only at h
  split at h
  · cases h
  · rename_i r hr
    split at hr
    · cases hr
    · cases hr
      cases h
      rfl

/-- A run that raises no exception is the run of the components. -/
theorem runAllE_eq {V : String → Type} {comp : Ref → Comp V} {compE : Ref → CompE V} (l : List Ref)
    (hc : ∀ u {s s' : Store V}, (compE u).run s = .ok s' → (comp u).run s = s') {s s' : Store V}
    (h : runAllE (l.map compE) s = .ok s') : runAll (l.map comp) s = s' := by
  induction l generalizing s with
  | nil => cases h; rfl
  | cons u l ih =>
    simp only [List.map_cons, runAllE] at h
    split at h
    · cases h
    · rename_i t ht
      show runAll (l.map comp) ((comp u).run s) = s'
      rw [hc u ht]
      exact ih h

/-- Arrays solve the equations of the program exactly if the components leave them as they are. -/
theorem on_solves (h : CompiledOn genv env m prog l comps size) (S : Store (FlatArr size)) :
    (runAllE (comps.map (l.compE W K size)) S = .ok S ∧ RunsDefined genv prog l.shape comps (held l W S)) ↔
      Solves genv prog l.shape comps (held l W S) := by
  have hrun : RunsDefined genv prog l.shape comps (held l W S) → Fixed l W K comps S →
      runAllE (comps.map (l.compE W K size)) S = .ok S := by
    intro hd hf
    have h1 := (runAll_fixed_iff h.arranged.nodup (compiled_own h) S).1 ((compiled_fixed_iff h S).2 hf)
    have h2 : ∀ p : List Ref, (∀ u ∈ p, u ∈ comps) → runAllE (p.map (l.compE W K size)) S = .ok S := by
      intro p hp
      induction p with
      | nil => rfl
      | cons u p ih =>
        have h3 : (l.comp W K size u).run S = S := by
          funext n
          unfold Comp.run
          split
          · rename_i hn; exact (h1 u (hp u (by simp)) n hn).symm
          · rfl
        simp only [List.map_cons, runAllE, compiled_runs h hd (hp u (by simp)), h3]
        exact ih fun v hv => hp v (by simp [hv])
    exact h2 comps fun u hu => hu
  constructor
  · rintro ⟨h1, hd⟩
    refine fixed_solves h ((compiled_fixed_iff h S).1 ?_) hd
    exact runAllE_eq comps (fun u => outsCompE_eq) h1
  · intro hs
    have hd : RunsDefined genv prog l.shape comps (held l W S) := fun a c b hp hu => (hs.expr a c b hp hu).1
    exact ⟨hrun hd (solves_fixed h hs), hd⟩

/-- **C74** for the arrays OpenMDAO computes. Where the calls of the program are defined, the components run without
exceptions and leave the arrays as they are exactly if these solve the equations of the program, those that define
outputs in terms of themselves included. -/
theorem c74_solves (h : CompiledCore genv env noSub prog l comps size) (S : Store (FlatArr size)) :
    (runAllE (comps.map (l.compE W K size)) S = .ok S ∧ RunsDefined genv prog l.shape comps (held l W S)) ↔
      Solves genv prog l.shape comps (held l W S) :=
  on_solves h.toCompiledOn S

/-- The outputs of the group are among the components whose equations these are. -/
theorem c74_outputs (h : CompiledCore genv env m prog l comps size) {u : Ref} (hr : Returned genv (ops prog) u)
    (hk : (W).kind u = .explicitOut) : u ∈ comps :=
  output_comps h.ok h.setup hr hk

/-- **C74**, iteration. If the components are run again and again without exceptions, starting from any arrays, and the
arrays converge to some at which the calls of the program are defined, these solve its equations. Variables that no
component computes keep their arrays. -/
theorem c74_iteration (h : CompiledCore genv env noSub prog l comps size) {s : Nat → Store (FlatArr size)}
    {S : Store (FlatArr size)} (hrun : ∀ k, runAllE (comps.map (l.compE W K size)) (s k) = .ok (s (k + 1)))
    (hlim : ∀ n, Filter.Tendsto (fun k => s k n) Filter.atTop (nhds (S n)))
    (hd : RunsDefined genv prog l.shape comps (held l W S)) :
    Solves genv prog l.shape comps (held l W S) ∧
    ∀ n, (∀ u ∈ comps, n ∉ (l.comp W K size u).writes) → S n = s 0 n := by
  have hit : ∀ k, s k = (runAll (comps.map (l.comp W K size)))^[k] (s 0) := by
    intro k
    induction k with
    | zero => rfl
    | succ k ih =>
      rw [Function.iterate_succ_apply', ← ih]
      exact (runAllE_eq comps (fun u => outsCompE_eq) (hrun k)).symm
  refine ⟨fixed_solves h.toCompiledOn ((compiled_fixed_iff h.toCompiledOn S).1 ?_) hd, fun n hn => ?_⟩
  · exact iterates_fixed h.arranged.nodup (compiled_own h.toCompiledOn)
      (fun n => (hlim n).congr fun k => by rw [hit k]) fun u hu n hn => partials_continuousAt (c74_partials h.toCompiledOn hd hu).1 hn
  · refine tendsto_nhds_unique (hlim n) (tendsto_const_nhds.congr fun k => ?_)
    rw [hit k]
    exact (iterates_untouched comps (s 0) hn k).symm

/-- **C74**, total derivatives. Let the arrays `S p` solve the equations of the program for `p` near `p₀`, and let them be
differentiable at `p₀`. Their derivatives solve OpenMDAO's linear system of total derivatives. So if this system, with zero
derivatives of what no component computes, has only the solution zero, its solution is the derivative. -/
theorem c74_totals {P : Type} [NormedAddCommGroup P] [NormedSpace ℝ P]
    (h : CompiledCore genv env noSub prog l comps size) {S : P → Store (FlatArr size)} {p₀ : P}
    (hs : ∀ᶠ p in nhds p₀, Solves genv prog l.shape comps (held l W (S p)))
    {d : (n : String) → P →L[ℝ] FlatArr size n} (hd : ∀ n, HasFDerivAt (fun p => S p n) (d n) p₀) :
    TotalSystem (· ∈ comps) (l.comp W K size) (l.partials W K size) (S p₀) d d ∧
    ∀ d₀, (∀ n, (∀ u ∈ comps, n ∉ (l.comp W K size u).writes) → d₀ n = d n) →
      (∀ e : (n : String) → P →L[ℝ] FlatArr size n,
        TotalSystem (· ∈ comps) (l.comp W K size) (l.partials W K size) (S p₀) (fun _ => 0) e → ∀ n, e n = 0) →
      ∀ d', TotalSystem (· ∈ comps) (l.comp W K size) (l.partials W K size) (S p₀) d₀ d' ↔ d' = d := by
  have hsys : TotalSystem (· ∈ comps) (l.comp W K size) (l.partials W K size) (S p₀) d d := by
    refine ⟨fun _ _ => rfl, fun u hu n hn => ?_⟩
    have hs0 := hs.self_of_nhds
    have hdef : RunsDefined genv prog l.shape comps (held l W (S p₀)) := fun a c b hp hu => (hs0.expr a c b hp hu).1
    have hex := (c74_partials h.toCompiledOn hdef hu).1 n hn
    have hx : HasFDerivAt (fun p (i : Fin (l.comp W K size u).reads.length) => S p (l.comp W K size u).reads[i])
        (ContinuousLinearMap.pi fun i => d (l.comp W K size u).reads[i]) p₀ := hasFDerivAt_pi.2 fun i => hd _
    have hcomp := HasFDerivAt.comp p₀ hex hx
    have heq : (fun p => S p n) =ᶠ[nhds p₀]
        fun p => (l.comp W K size u).f (fun i => S p (l.comp W K size u).reads[i]) n := by
      filter_upwards [hs] with p hp
      exact (runAll_fixed_iff h.arranged.nodup (compiled_own h.toCompiledOn) (S p)).1
        ((compiled_fixed_iff h.toCompiledOn (S p)).2 (solves_fixed h.toCompiledOn hp)) u hu n hn
    have := (hd n).unique (hcomp.congr_of_eventuallyEq heq)
    rw [this]
    ext x
    simp
  refine ⟨hsys, fun d₀ hd₀ huniq d' => ⟨fun h' => ?_, ?_⟩⟩
  · have hz := huniq (fun n => d' n - d n) ⟨fun n hn => ?_, fun u hu n hn => ?_⟩
    · funext n
      exact sub_eq_zero.1 (hz n)
    · show d' n - d n = 0
      rw [h'.1 n hn, hd₀ n hn, sub_self]
    · show d' n - d n = _
      rw [h'.2 u hu n hn, hsys.2 u hu n hn, ← Finset.sum_sub_distrib]
      refine Finset.sum_congr rfl fun i _ => ?_
      rw [ContinuousLinearMap.comp_sub]
  · rintro rfl
    exact ⟨fun n hn => (hd₀ n hn).symm, hsys.2⟩

/-- What the component of a call does. -/
theorem run_expr (h : CompiledOn genv env m prog l comps size) {S : Store (FlatArr size)}
    (hd : RunsDefined genv prog l.shape comps (held l W S)) {a b : List Stmt} {c : Term}
    (hp : prog = a ++ .expr c :: b) {u : Ref} (hua : u = (final genv (ops a)).next) (hu : u ∈ comps) :
    ∃ S', (l.compE W K size u).run S = .ok S' ∧ (∀ n, n ≠ (W).name u → S' n = S n) ∧
      ∀ idx, InBounds (c.outShape l.shape) idx → ∀ i : Fin (size ((W).name u)), i.1 = ravel (c.outShape l.shape) idx →
        S' ((W).name u) i = c.entry l.shape (held l W S) idx := by
  obtain ⟨B, h1, hB, hsh, h2⟩ := made_expr h hp hua hu
  refine ⟨_, compiled_runs h hd hu, fun n hn => ?_, fun idx hidx i hi => ?_⟩
  · unfold Comp.run
    rw [if_neg]
    show n ∉ (l.outsOf W K u).map Prod.fst
    rw [h1]
    simpa using hn
  · have hB' : ((W).name u, B) ∈ l.outsOf W K u := by rw [h1]; simp
    have hmem : (W).name u ∈ (l.comp W K size u).writes := List.mem_map.2 ⟨_, hB', rfl⟩
    unfold Comp.run
    rw [if_pos hmem, comp_at h S hu hB' i]
    obtain ⟨r, r1, r2⟩ := ((c69_term (W).name l.shape (held l W S) _ c B hB).2 (h.apart a c b hp)
      (hd a c b hp (hua ▸ hu)) (held_reads h S (h1 ▸ h2 : Computes genv prog l comps u (l.outsOf W K u) c.refs))).value
    rw [← r2 idx hidx, ← hi]
    exact congrFun (total_of r1) i.1

/-- What the component of a definition does. -/
theorem run_define (h : CompiledOn genv env m prog l comps size) {S : Store (FlatArr size)}
    (hd : RunsDefined genv prog l.shape comps (held l W S)) {a b : List Stmt} {u e : Ref}
    (hp : prog = a ++ .define u e :: b) (h2 : (step genv (final genv (ops a)) (.define u e)).2 = none)
    (hk : (W).kind u = .explicitOut) (hi : ¬ AssignedTo prog u) (hu : u ∈ comps) :
    ∃ S', (l.compE W K size u).run S = .ok S' ∧ (∀ n, n ≠ (W).name u → S' n = S n) ∧
      ∀ i : Fin (size ((W).name u)), S' ((W).name u) i = held l W S e i := by
  obtain ⟨h1, hsh, h3⟩ := made_define (comps := comps) h hp hu h2 hk hi
  refine ⟨_, compiled_runs h hd hu, fun n hn => ?_, fun i => ?_⟩
  · unfold Comp.run
    rw [if_neg]
    show n ∉ (l.outsOf W K u).map Prod.fst
    rw [h1]
    simpa using hn
  · have hB' : ((W).name u, builtPass (W).name l.shape u e) ∈ l.outsOf W K u := by rw [h1]; simp
    have hmem : (W).name u ∈ (l.comp W K size u).writes := List.mem_map.2 ⟨_, hB', rfl⟩
    unfold Comp.run
    rw [if_pos hmem, comp_at h S hu hB' i]
    exact congrFun (held_reads h S (h1 ▸ h3 : Computes genv prog l comps u (l.outsOf W K u) [e]) e (by simp)) i.1

end
/-! ## A program with feedback -/

/-- `x` (1), an output `y` (2), `0.5 * y` (3) and `x + 0.5 * y` (4), which defines `y` (the leaf for feedback is 5). -/
noncomputable def fbProg : List Stmt :=
  [.createIndep "x" [1], .createOutput "y" [1], .expr (.mul (.const (.num (1 / 2))) (.ref 2)),
   .expr (.add (.ref 1) (.ref 3)), .define 2 4]

def fbOps : List Op := [.createIndep "x", .createOutput "y", .combine [2], .combine [1, 3], .define 2 4]

theorem fb_ops : ops fbProg = fbOps := rfl

theorem fb_added {s : Ref} : ¬ AddedIn progGEnv fbOps s := by
  rintro ⟨a, nm, b, e, rfl⟩
  obtain ⟨i, hi, rfl, h1, _⟩ := split_cases e
  change i < 5 at hi
  interval_cases i <;> simp [fbOps] at h1

theorem fb_core {α : Type} {m : Meaning α} : ProgramCore progGEnv demoEnv m fbOps where
  group := groupOk_of_check (by decide) ⟨trivial, trivial, trivial, trivial, (show _ ≠ _ by decide), trivial⟩ (by decide) 8
    pyOrder_ascending (by decide)
  uses := by
    intro a op b e u hu
    obtain ⟨i, hi, rfl, h1, _⟩ := split_cases e
    change i < 5 at hi
    have r1 : ∀ k, Returned progGEnv (fbOps.take (k + 1)) 1 := fun k =>
      ⟨[], .createIndep "x", _, rfl, by show _ = _; decide⟩
    have r2 : ∀ k, Returned progGEnv (fbOps.take (k + 2)) 2 := fun k =>
      ⟨fbOps.take 1, .createOutput "y", _, rfl, by show _ = _; decide⟩
    have r3 : ∀ k, Returned progGEnv (fbOps.take (k + 3)) 3 := fun k =>
      ⟨fbOps.take 2, .combine [2], _, rfl, by show _ = _; decide⟩
    have r4 : ∀ k, Returned progGEnv (fbOps.take (k + 4)) 4 := fun k =>
      ⟨fbOps.take 3, .combine [1, 3], _, rfl, by show _ = _; decide⟩
    interval_cases i <;> simp [fbOps] at h1 <;> subst h1 <;> simp [Op.uses] at hu
    · subst hu; exact r2 0
    · rcases hu with rfl | rfl
      · exact r1 2
      · exact r3 0
    · rcases hu with rfl | rfl
      · exact r2 2
      · exact r4 0
  own := by
    rintro u v ⟨hu, hu'⟩ ⟨hv, hv'⟩
    change u < 6 at hu
    change v < 6 at hv
    revert hu' hv'
    interval_cases u <;> interval_cases v <;> decide
  subs := fun s n hs => absurd hs fb_added

/-- The output is defined by an expression that depends on it. -/
theorem fb_feedback : ¬ NoFeedback progGEnv fbOps := by
  intro h
  refine h (fbOps.take 4) 2 4 [] rfl ?_
  exact Relation.ReflTransGen.head (show 3 ∈ _ by decide) (.single (show 2 ∈ _ by decide))

theorem fb_first : RegisteredFirst fbOps := by
  intro a out e b he
  obtain ⟨i, hi, rfl, h1, _⟩ := split_cases he
  change i < 5 at hi
  interval_cases i <;> simp [fbOps] at h1

/-- `-y` instead of `0.5 * y`, and `x = 6`. -/
def fbMeaning : Meaning Int where
  const _ := 6
  op u l := if u = 3 then - l.sum else l.sum
  part _ x := x
  assemble _ l := l.sum
  subReads _ := []
  subWrites _ := []
  sub _ _ _ := 0

def fbValues (n : String) : Int := if n = "x" then 6 else if n = "y" then 3 else if n = "___" then -3 else 3

/-- The value 3 for `y` stays as it is, and solves `y = x + (-y)`. -/
example : ∃ S : String → Int, Satisfies progGEnv fbMeaning fbOps S S ∧ S "x" = 6 ∧ S "y" = 3 := by
  have hok : ProgramCore progGEnv demoEnv fbMeaning fbOps := fb_core
  have hc : setupGroup demoEnv (final progGEnv fbOps) = .ok [1, 3, 4, 2] := by decide
  refine ⟨fbValues, c74_converged hok fb_first hc ?_, by decide, by decide⟩
  refine (runAll_fixed_iff (by decide) (fun _ _ _ hu hv => program_own hok (comps_lt hok (arranged_setup hok.group hc) hu) (comps_lt hok (arranged_setup hok.group hc) hv)) _).2 ?_
  decide

def fbShape (u : Ref) : List Nat := if u = 0 then [] else [1]

theorem fb_noItem {a b : List Stmt} {st : Stmt} (e : fbProg = a ++ st :: b) :
    (∀ x key, st ≠ .getItem x key) ∧ ∀ out key e, st ≠ .setItem out key e := by
  obtain ⟨i, hi, rfl, h1, _⟩ := split_prog e
  change i < 5 at hi
  interval_cases i <;> simp [fbProg] at h1 <;> subst h1 <;> simp

theorem fb_notAssigned (u : Ref) : ¬ AssignedTo fbProg u := by
  rintro ⟨a, key, e, b, he⟩
  exact absurd rfl ((fb_noItem he).2 u key e)

theorem fb_returned {u : Ref} : Returned progGEnv fbOps u ↔ u = 1 ∨ u = 2 ∨ u = 3 ∨ u = 4 := by
  constructor
  · rintro ⟨a, op, b, e, h⟩
    obtain ⟨i, hi, rfl, h1, _⟩ := split_cases e
    change i < 5 at hi
    interval_cases i <;> simp [fbOps] at h1 <;> subst h1
    · exact Or.inl h
    · exact Or.inr (Or.inl h)
    · exact Or.inr (Or.inr (Or.inl h))
    · exact Or.inr (Or.inr (Or.inr h))
    · exact h.elim
  · rintro (rfl | rfl | rfl | rfl)
    · exact ⟨[], .createIndep "x", _, rfl, by show _ = _; decide⟩
    · exact ⟨fbOps.take 1, .createOutput "y", _, rfl, by show _ = _; decide⟩
    · exact ⟨fbOps.take 2, .combine [2], _, rfl, by show _ = _; decide⟩
    · exact ⟨fbOps.take 3, .combine [1, 3], _, rfl, by show _ = _; decide⟩

theorem fb_compiled {m : Meaning Unit} : ∃ l, CompiledCore progGEnv demoEnv m fbProg l [1, 3, 4, 2] (fun _ => 1) ∧
    ∀ u, Returned progGEnv fbOps u → l.shape u = [1] := by
  obtain ⟨l, h1, h2⟩ := c69_compiles (genv := progGEnv) (env := demoEnv) (m := m) (prog := fbProg) (shape := fbShape)
    fb_core rfl (by
      intro a st b e
      obtain ⟨i, hi, rfl, h1, _⟩ := split_prog e
      change i < 5 at hi
      interval_cases i <;> simp [fbProg] at h1 <;> subst h1 <;> trivial) (by
      intro a st b e
      obtain ⟨i, hi, rfl, h1, _⟩ := split_prog e
      change i < 5 at hi
      interval_cases i <;> simp [fbProg] at h1 <;> subst h1
      · show fbShape _ = _; decide
      · show fbShape _ = _; decide
      · exact ⟨trivial, by decide⟩
      · exact ⟨⟨by decide, by decide⟩, by decide⟩
      · intro _; decide)
  have h2' : ∀ u, Returned progGEnv fbOps u → l.shape u = [1] := by
    intro u hu
    rw [h2 u hu]
    rcases fb_returned.1 hu with rfl | rfl | rfl | rfl <;> decide
  refine ⟨l, .of fb_core h1 (by rw [fb_ops]; decide) (fun u hu => ?_) fb_first
    (fun a x key b e => absurd rfl ((fb_noItem e).1 x key))
    (fun a out key e b he => absurd rfl ((fb_noItem he).2 out key e)) fun a c b e => ?_, h2'⟩
  · rw [h2' u hu]; rfl
  · obtain ⟨i, hi, rfl, he, _⟩ := split_prog e
    change i < 5 at hi
    interval_cases i <;> simp [fbProg] at he <;> subst he <;> trivial

/-- Values of `x`, `y`, `0.5 * y` and `x + 0.5 * y`. -/
noncomputable def fbStore (x y a b : ℝ) : Store (FlatArr fun _ => 1) := fun n _ =>
  if n = "x" then x else if n = "y" then y else if n = "___" then a else if n = "____" then b else 0

theorem fb_defined {l : Layout} (val : Ref → Nat → ℝ) : RunsDefined progGEnv fbProg l.shape [1, 3, 4, 2] val := by
  intro a c b e _
  obtain ⟨i, hi, rfl, he, _⟩ := split_prog e
  change i < 5 at hi
  interval_cases i <;> simp [fbProg] at he <;> subst he
  · exact ⟨by simp, by simp⟩
  · trivial

local notation "WF" => final progGEnv (ops fbProg)
local notation "KF" => wires progGEnv (ops fbProg)

theorem fb_writes {l : Layout} (h : CompiledCore progGEnv demoEnv noSub fbProg l [1, 3, 4, 2] (fun _ => 1)) :
    (l.comp WF KF (fun _ => 1) 1).writes = [] ∧ (l.comp WF KF (fun _ => 1) 3).writes = ["___"] ∧
    (l.comp WF KF (fun _ => 1) 4).writes = ["____"] ∧ (l.comp WF KF (fun _ => 1) 2).writes = ["y"] := by
  refine ⟨rfl, ?_, ?_, ?_⟩
  · obtain ⟨B, h1, -⟩ := made_expr h.toCompiledOn (a := fbProg.take 2) (u := 3) rfl (by decide) (by simp)
    show (l.outsOf WF KF 3).map Prod.fst = _
    rw [h1]
    show [(WF).name 3] = _
    decide
  · obtain ⟨B, h1, -⟩ := made_expr h.toCompiledOn (a := fbProg.take 3) (u := 4) rfl (by decide) (by simp)
    show (l.outsOf WF KF 4).map Prod.fst = _
    rw [h1]
    show [(WF).name 4] = _
    decide
  · obtain ⟨h1, -⟩ := made_define (comps := [1, 3, 4, 2]) h.toCompiledOn (a := fbProg.take 4) (u := 2) rfl (by simp) (by decide) (by decide)
      (fb_notAssigned 2)
    show (l.outsOf WF KF 2).map Prod.fst = _
    rw [h1]
    show [(WF).name 2] = _
    decide

/-- Values of these and other variables. -/
noncomputable def fbOn (R : String → ℝ) (x y a b : ℝ) : Store (FlatArr fun _ => 1) := fun n _ =>
  if n = "x" then x else if n = "y" then y else if n = "___" then a else if n = "____" then b else R n

/-- What each component does. -/
theorem fb_compsOn {l : Layout} (h : CompiledCore progGEnv demoEnv noSub fbProg l [1, 3, 4, 2] (fun _ => 1))
    (hl : ∀ u, Returned progGEnv fbOps u → l.shape u = [1]) (R : String → ℝ) (x y a b : ℝ) :
    (l.compE WF KF (fun _ => 1) 1).run (fbOn R x y a b) = .ok (fbOn R x y a b) ∧
    (l.compE WF KF (fun _ => 1) 3).run (fbOn R x y a b) = .ok (fbOn R x y (y / 2) b) ∧
    (l.compE WF KF (fun _ => 1) 4).run (fbOn R x y a b) = .ok (fbOn R x y a (x + a)) ∧
    (l.compE WF KF (fun _ => 1) 2).run (fbOn R x y a b) = .ok (fbOn R x b a b) := by
  have n1 : (WF).name 1 = "x" := by decide
  have n2 : (WF).name 2 = "y" := by decide
  have n3 : (WF).name 3 = "___" := by decide
  have n4 : (WF).name 4 = "____" := by decide
  have s1 := hl 1 (fb_returned.2 (by simp))
  have s2 := hl 2 (fb_returned.2 (by simp))
  have s3 := hl 3 (fb_returned.2 (by simp))
  have s4 := hl 4 (fb_returned.2 (by simp))
  have hin : InBounds [1] [0] := by simp [InBounds]
  have hheld : ∀ (S : Store (FlatArr fun _ => 1)) u, l.shape u = [1] → held l WF S u 0 = S ((WF).name u) 0 := by
    intro S u hu
    unfold held
    rw [dif_pos ⟨by simp, by rw [hu]; simp [prodShape]⟩]
    rfl
  refine ⟨?_, ?_, ?_, ?_⟩
  · rw [compiled_runs h.toCompiledOn (fb_defined _) (by simp)]
    congr 1
  · obtain ⟨S', h1, h2, h3⟩ := run_expr h.toCompiledOn (S := fbOn R x y a b) (fb_defined _) (a := fbProg.take 2) (u := 3) rfl
      (by decide) (by simp)
    rw [n3] at h2 h3
    rw [h1]
    congr 1
    funext n i
    obtain rfl : i = 0 := Subsingleton.elim _ _
    by_cases hn : n = "___"
    · subst hn
      have := h3 [0] (by simpa [Term.outShape, Arg.shape2, s2] using hin) 0 (by simp [Term.outShape, Arg.shape2, s2, ravel])
      rw [this]
      simp [Term.entry, Arg.entry, entryAt, s2, ravel, hheld _ 2 s2, n2, fbOn]
      ring
    · rw [h2 n hn]
      simp [fbOn, hn]
  · obtain ⟨S', h1, h2, h3⟩ := run_expr h.toCompiledOn (S := fbOn R x y a b) (fb_defined _) (a := fbProg.take 3) (u := 4) rfl
      (by decide) (by simp)
    rw [n4] at h2 h3
    rw [h1]
    congr 1
    funext n i
    obtain rfl : i = 0 := Subsingleton.elim _ _
    by_cases hn : n = "____"
    · subst hn
      have := h3 [0] (by simpa [Term.outShape, Arg.shape2, s1] using hin) 0 (by simp [Term.outShape, Arg.shape2, s1, ravel])
      rw [this]
      simp [Term.entry, Arg.entry, entryAt, s1, s3, ravel, hheld _ 1 s1, hheld _ 3 s3, n1, n3, fbOn]
    · rw [h2 n hn]
      simp [fbOn, hn]
  · obtain ⟨S', h1, h2, h3⟩ := run_define h.toCompiledOn (S := fbOn R x y a b) (fb_defined _) (a := fbProg.take 4)
      (u := 2) rfl (by decide) (by decide) (fb_notAssigned 2) (by simp)
    rw [n2] at h2 h3
    rw [h1]
    congr 1
    funext n i
    obtain rfl : i = 0 := Subsingleton.elim _ _
    by_cases hn : n = "y"
    · subst hn
      rw [h3 0]
      rw [show ((0 : Fin ((fun _ : String => 1) "y")) : Nat) = 0 from rfl, hheld _ 4 s4, n4]
      simp [fbOn]
    · rw [h2 n hn]
      simp [fbOn, hn]

/-- What each component does. -/
theorem fb_comps {l : Layout} (h : CompiledCore progGEnv demoEnv noSub fbProg l [1, 3, 4, 2] (fun _ => 1))
    (hl : ∀ u, Returned progGEnv fbOps u → l.shape u = [1]) (x y a b : ℝ) :
    (l.compE WF KF (fun _ => 1) 1).run (fbStore x y a b) = .ok (fbStore x y a b) ∧
    (l.compE WF KF (fun _ => 1) 3).run (fbStore x y a b) = .ok (fbStore x y (y / 2) b) ∧
    (l.compE WF KF (fun _ => 1) 4).run (fbStore x y a b) = .ok (fbStore x y a (x + a)) ∧
    (l.compE WF KF (fun _ => 1) 2).run (fbStore x y a b) = .ok (fbStore x b a b) :=
  fb_compsOn h hl (fun _ => 0) x y a b

/-- One run of the components. -/
theorem fb_run {l : Layout} (h : CompiledCore progGEnv demoEnv noSub fbProg l [1, 3, 4, 2] (fun _ => 1))
    (hl : ∀ u, Returned progGEnv fbOps u → l.shape u = [1]) (x y a b : ℝ) :
    runAllE ([1, 3, 4, 2].map (l.compE WF KF fun _ => 1))
      (fbStore x y a b) = .ok (fbStore x (x + y / 2) (y / 2) (x + y / 2)) := by
  simp only [List.map_cons, List.map_nil, runAllE, (fb_comps h hl _ _ _ _).1, (fb_comps h hl _ _ _ _).2.1,
    (fb_comps h hl _ _ _ _).2.2.1, (fb_comps h hl _ _ _ _).2.2.2]

/-- Starting from `y = 0` and running the components again and again converges to `y = 2 x`, which solves
`y = x + 0.5 y`. -/
example (x : ℝ) : ∃ (l : Layout) (s : Nat → Store (FlatArr fun _ => 1)), compileProgram progGEnv fbProg = .ok l ∧
    s 0 = fbStore x 0 0 0 ∧
    (∀ k, runAllE ([1, 3, 4, 2].map (l.compE WF KF fun _ => 1)) (s k) =
      .ok (s (k + 1))) ∧
    (∀ n, Filter.Tendsto (fun k => s k n) Filter.atTop (nhds (fbStore x (2 * x) x (2 * x) n))) ∧
    Solves progGEnv fbProg l.shape [1, 3, 4, 2] (held l (final progGEnv (ops fbProg)) (fbStore x (2 * x) x (2 * x))) := by
  obtain ⟨l, h, hl⟩ := fb_compiled
  let y : Nat → ℝ := fun k => 2 * x - 2 * x * (1 / 2) ^ k
  let s : Nat → Store (FlatArr fun _ => 1) := fun k => match k with
    | 0 => fbStore x 0 0 0
    | k + 1 => fbStore x (y (k + 1)) (y k / 2) (y (k + 1))
  have hy : ∀ k, x + y k / 2 = y (k + 1) := by
    intro k
    simp only [y, pow_succ]
    ring
  have hrun : ∀ k, runAllE ([1, 3, 4, 2].map (l.compE WF KF
      fun _ => 1)) (s k) = .ok (s (k + 1)) := by
    intro k
    cases k with
    | zero =>
      show runAllE _ (fbStore x 0 0 0) = .ok (fbStore x (y 1) (y 0 / 2) (y 1))
      rw [fb_run h hl, ← hy 0, show y 0 = 0 by simp [y]]
    | succ k =>
      show runAllE _ (fbStore x (y (k + 1)) (y k / 2) (y (k + 1))) = .ok (fbStore x (y (k + 2)) (y (k + 1) / 2) (y (k + 2)))
      rw [fb_run h hl, ← hy (k + 1)]
  have hlim : ∀ n, Filter.Tendsto (fun k => s k n) Filter.atTop (nhds (fbStore x (2 * x) x (2 * x) n)) := by
    have ht : Filter.Tendsto y Filter.atTop (nhds (2 * x)) := by
      have := (tendsto_pow_atTop_nhds_zero_of_lt_one (r := (1 / 2 : ℝ)) (by norm_num) (by norm_num)).const_mul (2 * x)
      simpa [y] using tendsto_const_nhds.sub this
    have ht1 := (Filter.tendsto_add_atTop_iff_nat 1).2 ht
    have ht2 : Filter.Tendsto (fun k => y k / 2) Filter.atTop (nhds x) := by
      simpa using ht.div_const 2
    intro n
    rw [← Filter.tendsto_add_atTop_iff_nat 1]
    refine tendsto_pi_nhds.2 fun i => ?_
    show Filter.Tendsto (fun k => fbStore x (y (k + 1)) (y k / 2) (y (k + 1)) n i) _ _
    unfold fbStore
    split_ifs
    · exact tendsto_const_nhds
    · exact ht1
    · exact ht2
    · exact ht1
    · exact tendsto_const_nhds
  exact ⟨l, s, h.compile, rfl, hrun, hlim, (c74_iteration h hrun hlim (fb_defined _)).1⟩

/-- A solution of the linear system gives the derivative of what a component computes along a curve. -/
theorem totalSystem_along {E : String → Type} [∀ n, NormedAddCommGroup (E n)] [∀ n, NormedSpace ℝ (E n)]
    {P : Type} [NormedAddCommGroup P] [NormedSpace ℝ P] {N : Ref → Prop} {comp : Ref → Comp E}
    {D : (u : Ref) → Partials (comp u)} {d₀ d : (n : String) → P →L[ℝ] E n} {T : ℝ → Store E}
    (h : TotalSystem N comp D (T 0) d₀ d) {u : Ref} (hu : N u) (hex : (D u).ExactAt fun i => T 0 (comp u).reads[i])
    {n : String} (hn : n ∈ (comp u).writes) (v : P) (hT : ∀ m, HasDerivAt (fun t => T t m) (d m v) 0) :
    HasDerivAt (fun t => (comp u).f (fun i => T t (comp u).reads[i]) n) (d n v) 0 := by
  have hx : HasDerivAt (fun t (i : Fin (comp u).reads.length) => T t (comp u).reads[i]) (fun i => d (comp u).reads[i] v) 0 :=
    hasDerivAt_pi.2 fun i => hT _
  have := (hex n hn).comp_hasDerivAt (0 : ℝ) hx
  rw [h.2 u hu n hn]
  refine this.congr_deriv ?_
  simp

theorem fb_solves {l : Layout} (h : CompiledCore progGEnv demoEnv noSub fbProg l [1, 3, 4, 2] (fun _ => 1))
    (hl : ∀ u, Returned progGEnv fbOps u → l.shape u = [1]) (x : ℝ) :
    Solves progGEnv fbProg l.shape [1, 3, 4, 2] (held l (final progGEnv (ops fbProg)) (fbStore x (2 * x) x (2 * x))) := by
  refine (c74_solves h _).1 ⟨?_, fb_defined _⟩
  rw [fb_run h hl]
  congr 2 <;> ring

/-- The derivatives of `x`, `y`, `0.5 * y` and `x + 0.5 * y` by `x`. -/
noncomputable def fbSlope (n : String) : ℝ →L[ℝ] FlatArr (fun _ => 1) n :=
  ContinuousLinearMap.pi fun _ => (if n = "x" then 1 else if n = "y" then 2 else if n = "___" then 1
    else if n = "____" then 2 else 0 : ℝ) • ContinuousLinearMap.id ℝ ℝ

theorem fb_slope (x : ℝ) (n : String) :
    HasFDerivAt (fun x => fbStore x (2 * x) x (2 * x) n) (fbSlope n) x := by
  refine hasFDerivAt_pi.2 fun i => ?_
  show HasFDerivAt (fun x => if n = "x" then x else if n = "y" then 2 * x else if n = "___" then x
    else if n = "____" then 2 * x else 0) (_ : ℝ →L[ℝ] ℝ) x
  have h2 : HasFDerivAt (fun x : ℝ => 2 * x) ((2 : ℝ) • ContinuousLinearMap.id ℝ ℝ) x := (hasFDerivAt_id x).const_mul 2
  have h1 : HasFDerivAt (fun x : ℝ => x) ((1 : ℝ) • ContinuousLinearMap.id ℝ ℝ) x := by
    rw [one_smul]; exact hasFDerivAt_id x
  have h0 : HasFDerivAt (fun _ : ℝ => (0 : ℝ)) ((0 : ℝ) • ContinuousLinearMap.id ℝ ℝ) x := by
    simpa using hasFDerivAt_const (0 : ℝ) x
  split_ifs
  · exact h1
  · exact h2
  · exact h1
  · exact h2
  · exact h0

/-- The linear system of this program has only one solution, which is the derivative: `y` grows by 2 for each unit
of `x`. -/
example (x : ℝ) : ∃ l, compileProgram progGEnv fbProg = .ok l ∧
    ∀ d', TotalSystem (· ∈ [1, 3, 4, 2]) (l.comp WF KF fun _ => 1)
      (l.partials WF KF fun _ => 1)
      (fbStore x (2 * x) x (2 * x)) fbSlope d' ↔ d' = fbSlope := by
  obtain ⟨l, h, hl⟩ := fb_compiled (m := noSub)
  refine ⟨l, h.compile, (c74_totals h (S := fun x => fbStore x (2 * x) x (2 * x)) (p₀ := x)
    (Filter.Eventually.of_forall fun x => fb_solves h hl x) (fb_slope x)).2 fbSlope (fun _ _ => rfl) ?_⟩
  intro e he
  obtain ⟨w1, w3, w4, w2⟩ := fb_writes h
  have hz : ∀ n, n ≠ "y" → n ≠ "___" → n ≠ "____" → e n = 0 := by
    intro n g1 g2 g3
    refine he.1 n fun u hu => ?_
    simp only [List.mem_cons, List.not_mem_nil, or_false] at hu
    rcases hu with rfl | rfl | rfl | rfl
    · rw [w1]; simp
    · rw [w3]; simpa using g2
    · rw [w4]; simpa using g3
    · rw [w2]; simpa using g1
  have key : ∀ v : ℝ, e "y" v 0 = 0 ∧ e "___" v 0 = 0 ∧ e "____" v 0 = 0 := by
    intro v
    let T : ℝ → Store (FlatArr fun _ => 1) := fun t => fbStore x (2 * x + t * e "y" v 0) (x + t * e "___" v 0)
      (2 * x + t * e "____" v 0)
    have hT0 : T 0 = fbStore x (2 * x) x (2 * x) := by simp [T]
    have hT : ∀ m, HasDerivAt (fun t => T t m) (e m v) 0 := by
      intro m
      refine hasDerivAt_pi.2 fun i => ?_
      obtain rfl : i = 0 := Subsingleton.elim _ _
      have hline : ∀ c d : ℝ, HasDerivAt (fun t => c + t * d) d (0 : ℝ) := fun c d => by
        simpa using ((hasDerivAt_id (0 : ℝ)).mul_const d).const_add c
      show HasDerivAt (fun t => if m = "x" then x else if m = "y" then 2 * x + t * e "y" v 0 else if m = "___" then
        x + t * e "___" v 0 else if m = "____" then 2 * x + t * e "____" v 0 else 0) (e m v 0 : ℝ) 0
      split_ifs with g1 g2 g3 g4
      · rw [hz m (by rw [g1]; decide) (by rw [g1]; decide) (by rw [g1]; decide)]; exact hasDerivAt_const _ _
      · subst g2; exact hline _ _
      · subst g3; exact hline _ _
      · subst g4; exact hline _ _
      · rw [hz m g2 g3 g4]; exact hasDerivAt_const _ _
    rw [← hT0] at he
    have along : ∀ u ∈ [1, 3, 4, 2], ∀ n ∈ (l.comp WF KF (fun _ => 1) u).writes, ∀ g : ℝ → Store (FlatArr fun _ => 1),
        (∀ t, (l.compE WF KF (fun _ => 1) u).run (T t) = .ok (g t)) → HasDerivAt (fun t => g t n 0) (e n v 0) 0 := by
      intro u hu n hn g hg
      have := totalSystem_along he hu (c74_partials h.toCompiledOn (fb_defined _) hu).1 hn v hT
      have := hasDerivAt_pi.1 this 0
      refine this.congr_of_eventuallyEq (Filter.Eventually.of_forall fun t => ?_)
      show g t n 0 = _
      rw [← outsCompE_eq (hg t)]
      show (l.comp WF KF (fun _ => 1) u).run (T t) n 0 = _
      unfold Comp.run
      rw [if_pos hn]
    have e3 := along 3 (by simp) "___" (by rw [w3]; simp) _ fun t => (fb_comps h hl _ _ _ _).2.1
    have e4 := along 4 (by simp) "____" (by rw [w4]; simp) _ fun t => (fb_comps h hl _ _ _ _).2.2.1
    have e2 := along 2 (by simp) "y" (by rw [w2]; simp) _ fun t => (fb_comps h hl _ _ _ _).2.2.2
    have hline : ∀ c d : ℝ, HasDerivAt (fun t => c + t * d) d (0 : ℝ) := fun c d => by
      simpa using ((hasDerivAt_id (0 : ℝ)).mul_const d).const_add c
    have q3 : e "___" v 0 = e "y" v 0 / 2 := e3.unique ((hline (2 * x) (e "y" v 0)).div_const 2)
    have q4 : e "____" v 0 = e "___" v 0 := e4.unique ((hline x (e "___" v 0)).const_add x)
    have q2 : e "y" v 0 = e "____" v 0 := e2.unique (hline _ _)
    refine ⟨?_, ?_, ?_⟩ <;> linarith
  intro n
  refine ContinuousLinearMap.ext fun v => funext fun i => ?_
  obtain rfl : i = 0 := Subsingleton.elim _ _
  obtain ⟨k1, k2, k3⟩ := key v
  by_cases g1 : n = "y"
  · subst g1; exact k1
  by_cases g2 : n = "___"
  · subst g2; exact k2
  by_cases g3 : n = "____"
  · subst g3; exact k3
  rw [hz n g1 g2 g3]

end OM

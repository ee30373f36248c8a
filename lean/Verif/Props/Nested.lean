import Verif.Lemmas.Rename
import Verif.Props.CompiledRun

/-!
# Groups inside groups compute what they say (C70)

A system is a component, or a group whose calls may add other systems as subsystems, with any promotions. Arrays for all variables that
solve the equations of every group in it, and that every other component of it computes, are what OpenMDAO computes
when it runs the groups one inside the other, and the totals assembled from the partials of all components are their
derivatives.
-/

namespace OM
open Spec

/-- A system that is accepted. The components of a group are those that its `setup` adds (`Compiled.part`), or some of them
in an order in which they can be run, as in the problem inside an implicit component. Nothing is asked of a component except that its inputs and outputs are what its `setup`
declares. Promotions do not give two variables the same name. -/
def System.Ok (size : String → Nat) : System → Prop
  | .comp outs => Shaped size outs ∧ ∀ n ∈ rd outs, n ∉ wr outs
  | .group genv env prog l comps sub => CompiledPart genv env (interface sub) prog l comps size ∧
      ∀ s ∈ comps, (worldOf genv prog).kind s = .subsystem → (sub s).Ok size
  | .promoted sys p s => s.Ok (size ∘ s.called sys p) ∧
      ∀ m ∈ s.reads ++ s.writes, ∀ n ∈ s.reads ++ s.writes, s.called sys p m = s.called sys p n → m = n

/-- A system that is accepted, with or without feedback in its groups. -/
def System.OkOn (size : String → Nat) : System → Prop
  | .comp outs => Shaped size outs ∧ ∀ n ∈ rd outs, n ∉ wr outs
  | .group genv env prog l comps sub => CompiledOn genv env (interface sub) prog l comps size ∧
      ∀ s ∈ comps, (worldOf genv prog).kind s = .subsystem → (sub s).OkOn size
  | .promoted sys p s => s.OkOn (size ∘ s.called sys p) ∧
      ∀ m ∈ s.reads ++ s.writes, ∀ n ∈ s.reads ++ s.writes, s.called sys p m = s.called sys p n → m = n

theorem System.Ok.on {s : System} {size : String → Nat} (h : s.Ok size) : s.OkOn size := by
  induction s generalizing size with
  | comp outs => exact h
  | group genv env prog l comps sub ih => exact ⟨h.1.toCompiledOn, fun u hu hk => ih u (h.2 u hu hk)⟩
  | promoted sys p s ih => exact ⟨ih h.1, h.2⟩

/-- The array of an object, if `arr` has the arrays of all names. -/
noncomputable def named (l : Layout) (w : World) (arr : String → Nat → ℝ) (u : Ref) (i : Nat) : ℝ :=
  if i < prodShape (l.shape u) then arr (w.name u) i else 0

/-- The arrays solve the equations of every group in the system, and the other components compute them. -/
def System.Solved (arr : String → Nat → ℝ) : System → Prop
  | .comp outs => Holds arr outs
  | .group genv _ prog l comps sub => Solves genv prog l.shape comps (named l (worldOf genv prog) arr) ∧
      ∀ s ∈ comps, (worldOf genv prog).kind s = .subsystem → (sub s).Solved arr
  | .promoted sys p s => s.Solved (arr ∘ s.called sys p)

/-- At these arrays no call in the system is evaluated outside its domain, and the other components have exact
partials. -/
def System.Defined (arr : String → Nat → ℝ) : System → Prop
  | .comp outs => ∀ p ∈ outs, ∃ e, ∀ inp, (∀ n ∈ rd outs, inp n = arr n) → p.2.Good p.2.shape e inp
  | .group genv _ prog l comps sub => RunsDefined genv prog l.shape comps (named l (worldOf genv prog) arr) ∧
      ∀ s ∈ comps, (worldOf genv prog).kind s = .subsystem → (sub s).Defined arr
  | .promoted sys p s => s.Defined (arr ∘ s.called sys p)

/-- The arrays that a store holds. -/
noncomputable def arrOf {size : String → Nat} (S : Store (FlatArr size)) (n : String) (i : Nat) : ℝ :=
  if h : i < size n then S n ⟨i, h⟩ else 0

/-- A name that no component of the system computes: an independent variable of a group in it, or an input of the
system. -/
def System.Given (s : System) (n : String) : Prop := ∀ c ∈ s.flat, n ∉ wr c

section
variable {size : String → Nat}

/-- The components of one object of a group. -/
noncomputable abbrev blockOf (genv : GEnv) (prog : List Stmt) (l : Layout) (sub : Ref → System) (u : Ref) :
    List (List (String × Built)) :=
  if (worldOf genv prog).kind u = .subsystem then (sub u).flat else [l.outsOf (worldOf genv prog) (wiresOf genv prog) u]

theorem runAllE_one {V : String → Type} (c : CompE V) (S : Store V) : runAllE [c] S = c.run S := by
  simp only [runAllE]
  cases c.run S <;> rfl

/-- Running groups inside groups runs all components in order. -/
theorem runAs_flat (s : System) (ρ : String → String) (S : Store (FlatArr size)) :
    s.runAs size ρ S = runAllE ((s.flat.map (renOuts ρ)).map (outsCompE size)) S := by
  induction s generalizing S ρ with
  | comp outs => simp only [System.runAs, System.flat, List.map_cons, List.map_nil, runAllE_one]
  | promoted sys p s ih =>
    simp only [System.runAs, System.flat, ih, List.map_map]
    congr 1
    refine List.map_congr_left fun c _ => ?_
    simp only [Function.comp, renOuts_renOuts]
  | group genv env prog l comps sub ih =>
    simp only [System.runAs, System.flat]
    induction comps generalizing S with
    | nil => rfl
    | cons u us ihu =>
      simp only [runEach, List.flatMap_cons, List.map_append, runAllE_append]
      have : (if (worldOf genv prog).kind u = .subsystem then (sub u).runAs size ρ
          else (outsCompE size (renOuts ρ (l.outsOf (worldOf genv prog) (wiresOf genv prog) u))).run) S =
          runAllE (((blockOf genv prog l sub u).map (renOuts ρ)).map (outsCompE size)) S := by
        unfold blockOf
        split
        · exact ih u ρ S
        · exact (runAllE_one _ S).symm
      rw [this]
      cases runAllE (((blockOf genv prog l sub u).map (renOuts ρ)).map (outsCompE size)) S with
      | error e => rfl
      | ok S' => exact ihu S'

theorem run_flat (s : System) (h : ∀ c ∈ s.flat, Shaped size c) (S : Store (FlatArr size)) :
    s.run size S = runAllE (s.flat.map (outsCompE size)) S := by
  unfold System.run
  rw [runAs_flat, List.map_map]
  congr 1
  exact List.map_congr_left fun c hc => renOuts_id (h c hc).ins

/-- The names of a system are its inputs and outputs. -/
theorem rd_names (s : System) {c : List (String × Built)} (hc : c ∈ s.flat) {n : String} (hn : n ∈ rd c) :
    n ∈ s.reads ++ s.writes := by
  by_cases hw : n ∈ s.writes
  · exact List.mem_append.2 (Or.inr hw)
  · exact List.mem_append.2 (Or.inl (List.mem_filter.2 ⟨List.mem_flatMap.2 ⟨c, hc, hn⟩, by simpa using hw⟩))

section
variable {genv : GEnv} {env : SetupEnv} {m : Meaning Unit} {prog : List Stmt} {l : Layout} {comps : List Ref}

local notation "W" => final genv (ops prog)
local notation "K" => wires genv (ops prog)

/-- Sizes of the variables of a component of a group. -/
theorem outsOf_shaped (h : CompiledOn genv env m prog l comps size) {u : Ref} (hu : u ∈ comps) :
    Shaped size (l.outsOf W K u) := by
  rcases comps_cases h hu with ⟨-, h1⟩ | ⟨refs, hc⟩
  · rw [h1]
    exact ⟨List.nodup_nil, by simp, by simp [insOf], by simp, by simp⟩
  · obtain ⟨h1, h2, -⟩ := hc.insOf_wired
    refine ⟨h1, hc.ins, fun q hq => ?_, fun p hp => ?_, hc.inj⟩
    · obtain ⟨v, hv, rfl⟩ := h2 q hq
      exact h.size v (hc.needs v hv).1
    · obtain ⟨v, n1, r1, -, -, -, s1, -⟩ := hc.out p hp
      rw [n1, s1]
      exact h.size v r1

/-- Arrays that solve the equations are computed by every component of the group. -/
theorem outsOf_holds (h : CompiledOn genv env m prog l comps size) {arr : String → Nat → ℝ}
    (hz : ∀ n i, size n ≤ i → arr n i = 0) (hs : Solves genv prog l.shape comps (named l W arr)) {u : Ref}
    (hu : u ∈ comps) : Holds arr (l.outsOf W K u) := by
  have hval : ∀ v, Returned genv (ops prog) v → named l W arr v = arr ((W).name v) := by
    intro v hr
    funext i
    unfold named
    split
    · rfl
    · exact (hz _ _ (by rw [h.size v hr]; omega)).symm
  rcases comps_cases h hu with ⟨-, h1⟩ | ⟨refs, hc⟩
  · rw [h1]
    intro inp _ p hp
    cases hp
  · intro inp hin p hp
    obtain ⟨v, n1, r1, -, -, -, s1, hg⟩ := hc.out p hp
    have := hg _ hs inp fun x hx => by
      rw [hval x (hc.needs x hx).1]
      exact hin _ (hc.insOf_wired.2.2 x hx)
    rw [s1, n1, ← hval v r1]
    exact this

end

/-- The components of an accepted system have the sizes that are declared, every variable is an output of one of them, and
they write names of the system. -/
theorem okOn_flat (s : System) (h : s.OkOn size) :
    s.flat.Pairwise (fun c c' => ∀ n ∈ wr c, n ∉ wr c') ∧ (∀ c ∈ s.flat, Shaped size c) ∧
      ∀ c ∈ s.flat, ∀ n ∈ wr c, n ∈ s.writes := by
  induction s generalizing size with
  | promoted sys p s ih =>
    obtain ⟨h1, h2⟩ := h
    obtain ⟨i1, i2, i3⟩ := ih h1
    have hw : ∀ c ∈ s.flat, ∀ n ∈ wr c, n ∈ s.reads ++ s.writes := fun c hc n hn => by simp [i3 c hc n hn]
    refine ⟨?_, ?_, ?_⟩
    · refine List.pairwise_map.2 (i1.imp_of_mem fun {c c'} hc hc' hne n hn hn' => ?_)
      rw [wr_renOuts] at hn hn'
      obtain ⟨x, hx, rfl⟩ := List.mem_map.1 hn
      obtain ⟨y, hy, hxy⟩ := List.mem_map.1 hn'
      obtain rfl := h2 y (hw c' hc' y hy) x (hw c hc x hx) hxy
      exact hne y hx hy
    · intro d hd
      obtain ⟨c, hc, rfl⟩ := List.mem_map.1 hd
      exact shaped_ren (i2 c hc) (fun x hx y hy => h2 x (rd_names s hc hx) y (rd_names s hc hy))
        fun x hx y hy => h2 x (hw c hc x hx) y (hw c hc y hy)
    · intro d hd n hn
      obtain ⟨c, hc, rfl⟩ := List.mem_map.1 hd
      rw [wr_renOuts] at hn
      obtain ⟨x, hx, rfl⟩ := List.mem_map.1 hn
      exact List.mem_map.2 ⟨x, i3 c hc x hx, rfl⟩
  | comp outs =>
    refine ⟨List.pairwise_singleton _ _, ?_, ?_⟩
    · intro c hc
      obtain rfl := List.mem_singleton.1 hc
      exact h.1
    · intro c hc n hn
      obtain rfl := List.mem_singleton.1 hc
      exact hn
  | group genv env prog l comps sub ih =>
    obtain ⟨h1, h2⟩ := h
    have hblock : ∀ u ∈ comps, ∀ c ∈ blockOf genv prog l sub u, ∀ n ∈ wr c,
        n ∈ (compOf (interface sub) (worldOf genv prog) (wiresOf genv prog) u).writes := by
      intro u hu c hc n hn
      unfold blockOf at hc
      split at hc
      · rename_i hk
        unfold compOf
        rw [hk]
        exact (ih u (h2 u hu hk)).2.2 c hc n hn
      · obtain rfl := List.mem_singleton.1 hc
        exact (compiled_realises h1 u).2 hn
    refine ⟨List.pairwise_flatMap.2 ⟨fun u hu => ?_, ?_⟩, ?_, ?_⟩
    · split
      · rename_i hk
        exact (ih u (h2 u hu hk)).1
      · exact List.pairwise_singleton _ _
    · refine List.Pairwise.imp_of_mem ?_ h1.arranged.nodup
      intro u v hu hv hne c hc c' hc' n hn hn'
      exact hne (program_own h1.ok (comps_lt h1.ok h1.arranged hu) (comps_lt h1.ok h1.arranged hv)
        (hblock u hu c hc n hn) (hblock v hv c' hc' n hn'))
    · intro c hc
      obtain ⟨u, hu, hcu⟩ := List.mem_flatMap.1 hc
      split at hcu
      · rename_i hk
        exact (ih u (h2 u hu hk)).2.1 c hcu
      · obtain rfl := List.mem_singleton.1 hcu
        exact outsOf_shaped h1 hu
    · intro c hc n hn
      obtain ⟨u, hu, hcu⟩ := List.mem_flatMap.1 hc
      refine List.mem_flatMap.2 ⟨u, hu, ?_⟩
      split at hcu
      · rename_i hk
        rw [hk]
        exact (ih u (h2 u hu hk)).2.2 c hcu n hn
      · rename_i hk
        obtain rfl := List.mem_singleton.1 hcu
        split
        · exact absurd (by assumption) hk
        · rename_i hk'
          unfold Layout.outsOf at hn
          rw [hk'] at hn
          cases hn
        · exact hn

/-- The components of an accepted system are in order and write names of the system. -/
theorem ok_flat (s : System) (h : s.Ok size) :
    Ordered s.flat ∧ (∀ c ∈ s.flat, Shaped size c) ∧ ∀ c ∈ s.flat, ∀ n ∈ wr c, n ∈ s.writes := by
  induction s generalizing size with
  | promoted sys p s ih =>
    obtain ⟨h1, h2⟩ := h
    obtain ⟨i1, i2, i3⟩ := ih h1
    have hw : ∀ c ∈ s.flat, ∀ n ∈ wr c, n ∈ s.reads ++ s.writes := fun c hc n hn => by simp [i3 c hc n hn]
    refine ⟨ordered_ren i1 ?_, ?_, ?_⟩
    · intro c hc c' hc' x hx y hy
      refine h2 x ?_ y ?_
      · rcases List.mem_append.1 hx with hx | hx
        · exact rd_names s hc hx
        · exact hw c hc x hx
      · rcases List.mem_append.1 hy with hy | hy
        · exact rd_names s hc' hy
        · exact hw c' hc' y hy
    · intro d hd
      obtain ⟨c, hc, rfl⟩ := List.mem_map.1 hd
      exact shaped_ren (i2 c hc) (fun x hx y hy => h2 x (rd_names s hc hx) y (rd_names s hc hy))
        fun x hx y hy => h2 x (hw c hc x hx) y (hw c hc y hy)
    · intro d hd n hn
      obtain ⟨c, hc, rfl⟩ := List.mem_map.1 hd
      rw [wr_renOuts] at hn
      obtain ⟨x, hx, rfl⟩ := List.mem_map.1 hn
      exact List.mem_map.2 ⟨x, i3 c hc x hx, rfl⟩
  | comp outs =>
    obtain ⟨h1, h2⟩ := h
    refine ⟨⟨List.pairwise_singleton _ _, ?_⟩, ?_, ?_⟩
    · intro p c q he n hn
      simp only [System.flat] at he ⊢
      obtain ⟨rfl, rfl⟩ : p = [] ∧ c = outs := by
        cases p with
        | nil => cases he; exact ⟨rfl, rfl⟩
        | cons x p => simp at he
      exact Or.inr fun c' hc' => by
        obtain rfl := List.mem_singleton.1 hc'
        exact h2 n hn
    · intro c hc
      obtain rfl := List.mem_singleton.1 hc
      exact h1
    · intro c hc n hn
      obtain rfl := List.mem_singleton.1 hc
      exact hn
  | group genv env prog l comps sub ih =>
    obtain ⟨h1, h2⟩ := h
    have hv := h1.ok.group.valid
    have hreal := compiled_realises h1.toCompiledOn
    have hsub : ∀ u, (worldOf genv prog).kind u = .subsystem →
        compOf (interface sub) (worldOf genv prog) (wiresOf genv prog) u =
          ⟨(sub u).reads, (sub u).writes, fun x n => ()⟩ := by
      intro u hk
      unfold compOf
      rw [hk]
      rfl
    refine ⟨ordered_flatMap (ic := compOf (interface sub) (worldOf genv prog) (wiresOf genv prog))
      h1.arranged.nodup ?_ ?_ ?_ ?_ ?_, ?_, ?_⟩
    · intro u hu
      split
      · rename_i hk
        exact (ih u (h2 u hu hk)).1
      · refine ⟨List.pairwise_singleton _ _, ?_⟩
        intro p c q he n hn
        obtain ⟨rfl, rfl⟩ : p = [] ∧ c = l.outsOf (worldOf genv prog) (wiresOf genv prog) u := by
          cases p with
          | nil => cases he; exact ⟨rfl, rfl⟩
          | cons x p => simp at he
        refine Or.inr fun c' hc' hw => ?_
        obtain rfl := List.mem_singleton.1 hc'
        rcases program_reads h1.program (oldNames h1.toCompiledOn) h1.arranged h1.order hu ((hreal u).1 hn) with h3 | ⟨v, h3, h4⟩
        · exact h3 u hu ((hreal u).2 hw)
        · obtain ⟨a, b, s, h5⟩ := h3
          have hvm : v ∈ comps := by rw [h5]; simp
          have := program_own h1.ok (comps_lt h1.ok h1.arranged hu) (comps_lt h1.ok h1.arranged hvm) ((hreal u).2 hw) h4
          subst this
          have hnd := h1.arranged.nodup
          rw [h5] at hnd
          have := (List.nodup_append.1 hnd).2.1
          simp at this
    · intro u hu c hc n hn
      split at hc
      · rename_i hk
        rw [hsub u hk]
        exact (ih u (h2 u hu hk)).2.2 c hc n hn
      · obtain rfl := List.mem_singleton.1 hc
        exact (hreal u).2 hn
    · intro u hu c hc n hn
      split at hc
      · rename_i hk
        rw [hsub u hk]
        by_cases hw : n ∈ (sub u).writes
        · exact Or.inr hw
        · refine Or.inl (List.mem_filter.2 ⟨List.mem_flatMap.2 ⟨c, hc, hn⟩, by simpa using hw⟩)
      · obtain rfl := List.mem_singleton.1 hc
        exact Or.inl ((hreal u).1 hn)
    · intro u v n hu hv' h3 h4
      exact program_own h1.ok (comps_lt h1.ok h1.arranged hu) (comps_lt h1.ok h1.arranged hv') h3 h4
    · intro u hu n hn
      exact program_reads h1.program (oldNames h1.toCompiledOn) h1.arranged h1.order hu hn
    · intro c hc
      obtain ⟨u, hu, hcu⟩ := List.mem_flatMap.1 hc
      split at hcu
      · rename_i hk
        exact (ih u (h2 u hu hk)).2.1 c hcu
      · obtain rfl := List.mem_singleton.1 hcu
        exact outsOf_shaped h1.toCompiledOn hu
    · intro c hc n hn
      obtain ⟨u, hu, hcu⟩ := List.mem_flatMap.1 hc
      refine List.mem_flatMap.2 ⟨u, hu, ?_⟩
      split at hcu
      · rename_i hk
        rw [hk]
        exact (ih u (h2 u hu hk)).2.2 c hcu n hn
      · rename_i hk
        obtain rfl := List.mem_singleton.1 hcu
        split
        · exact absurd (by assumption) hk
        · rename_i hk'
          unfold Layout.outsOf at hn
          rw [hk'] at hn
          cases hn
        · exact hn

theorem solved_holds (s : System) (h : s.OkOn size) {arr : String → Nat → ℝ} (hz : ∀ n i, size n ≤ i → arr n i = 0)
    (hs : s.Solved arr) : ∀ c ∈ s.flat, Holds arr c := by
  induction s generalizing size arr with
  | promoted sys p s ih =>
    obtain ⟨h1, h2⟩ := h
    intro d hd
    obtain ⟨c, hc, rfl⟩ := List.mem_map.1 hd
    exact holds_ren ((okOn_flat s h1).2.1 c hc) (fun x hx y hy => h2 x (rd_names s hc hx) y (rd_names s hc hy))
      (ih h1 (fun n i hi => hz _ i hi) hs c hc)
  | comp outs =>
    intro c hc
    obtain rfl := List.mem_singleton.1 hc
    exact hs
  | group genv env prog l comps sub ih =>
    intro c hc
    obtain ⟨u, hu, hcu⟩ := List.mem_flatMap.1 hc
    split at hcu
    · rename_i hk
      exact ih u (h.2 u hu hk) hz (hs.2 u hu hk) c hcu
    · obtain rfl := List.mem_singleton.1 hcu
      exact outsOf_holds h.1 hz hs.1 hu

/-- **C70**, values. Let `arr` solve the equations of all groups of a system, and let the other components compute it.
If independent variables and inputs start with their arrays, then OpenMDAO runs the groups one inside the other without
exceptions, every name holds its array afterwards, and the partials of all components can be computed. -/
theorem c70_values (s : System) (h : s.Ok size) {arr : String → Nat → ℝ} (hz : ∀ n i, size n ≤ i → arr n i = 0)
    (hs : s.Solved arr) {init : Store (FlatArr size)} (hi : ∀ n, s.Given n → ∀ i, init n i = arr n i) :
    ∃ S, s.run size init = .ok S ∧ (∀ n i, S n i = arr n i) ∧
      ∀ c ∈ s.flat, ∀ p ∈ c, ∃ q, p.2.partials (lookup (reads := rd c) fun i => S (rd c)[i]) = .ok q := by
  obtain ⟨h1, h2, -⟩ := ok_flat s h
  have hh := solved_holds s h.on hz hs
  obtain ⟨h3, h4⟩ := flat_values h1 h2 hh hz hi
  exact ⟨_, (run_flat s h2 init).trans h3, h4, fun c hc p hp => (hh c hc _ (fun n hn => lookup_arr h4 hz hn) p hp).partials⟩

/-- All components of a system, by position. -/
noncomputable abbrev System.comps (s : System) (size : String → Nat) : Ref → Comp (FlatArr size) := flatComp size s.flat

/-- Their partials. -/
noncomputable abbrev System.partials (s : System) (size : String → Nat) (k : Ref) : Partials (s.comps size k) :=
  flatPartials size s.flat k

/-- The positions of the components of a system. -/
noncomputable abbrev System.all (s : System) : List Ref := List.range s.flat.length

theorem comps_map (s : System) : s.all.map (s.comps size) = s.flat.map (outsComp size) :=
  map_range_getD (outsComp size) s.flat []

theorem holds_exactAll (s : System) (h : s.OkOn size) {arr : String → Nat → ℝ} (hz : ∀ n i, size n ≤ i → arr n i = 0)
    (hh : ∀ c ∈ s.flat, Holds arr c) {S : Store (FlatArr size)} (hS : ∀ n i, S n i = arr n i) :
    ∀ k ∈ s.all, (s.partials size k).ExactAt fun i => S (s.comps size k).reads[i] := by
  intro k hk
  have hlt : k < s.flat.length := by simpa using hk
  have hm : s.flat.getD k [] ∈ s.flat := by rw [getD_lt hlt]; exact List.getElem_mem _
  exact holds_exact hS hz ((okOn_flat s h).2.1 _ hm) (hh _ hm)

/-- **C70**, derivatives. If moreover independent variables and inputs are differentiable functions of `p`, forward
accumulation through the partials of all components, the only solution of OpenMDAO's linear system of total
derivatives, is the derivative of everything that is computed. -/
theorem c70_totals {P : Type} [NormedAddCommGroup P] [NormedSpace ℝ P] (s : System) (h : s.Ok size)
    {arr : String → Nat → ℝ} (hz : ∀ n i, size n ≤ i → arr n i = 0) (hs : s.Solved arr)
    {init : P → Store (FlatArr size)} {p₀ : P} (hi : ∀ n, s.Given n → ∀ i, init p₀ n i = arr n i)
    {d₀ : (n : String) → P →L[ℝ] FlatArr size n} (hinit : ∀ n, HasFDerivAt (fun p => init p n) (d₀ n) p₀) :
    let S := fun p => runAll (s.all.map (s.comps size)) (init p)
    let tangents := runAll (s.all.map fun k => tangentComp P (s.comps size k) (s.partials size k) (S p₀)) d₀
    (∀ n, HasFDerivAt (fun p => S p n) (tangents n) p₀) ∧
    ∀ d, TotalSystem (· ∈ s.all) (s.comps size) (s.partials size) (S p₀) d₀ d ↔ d = tangents := by
  obtain ⟨h1, h2, -⟩ := ok_flat s h
  have hh := solved_holds s h.on hz hs
  have hS := (flat_values h1 h2 hh hz hi).2
  rw [← comps_map] at hS
  exact totals_of List.nodup_range (flat_own h1) (flat_reads h1) hinit (holds_exactAll s h.on hz hh hS)

/-! ## Whatever is computed -/

theorem arrOf_zero (S : Store (FlatArr size)) (n : String) (i : Nat) (hi : size n ≤ i) : arrOf S n i = 0 := by
  unfold arrOf
  rw [dif_neg (by omega)]

theorem arrOf_eq (S : Store (FlatArr size)) (n : String) (i : Fin (size n)) : S n i = arrOf S n i := by
  unfold arrOf
  rw [dif_pos i.2]

theorem named_held (l : Layout) (w : World) (S : Store (FlatArr size)) : named l w (arrOf S) = held l w S := by
  funext u i
  unfold named held arrOf
  by_cases h1 : i < size (w.name u) <;> by_cases h2 : i < prodShape (l.shape u) <;> simp [h1, h2]

/-- Arrays that all components compute from themselves. -/
def FixedAll (s : System) (S : Store (FlatArr size)) : Prop :=
  ∀ c ∈ s.flat, ∀ p ∈ c, ∀ i : Fin (size p.1), S p.1 i = p.2.total (lookup (reads := rd c) fun j => S (rd c)[j]) i

theorem fixedAll_solved (s : System) (h : s.OkOn size) {S : Store (FlatArr size)} (hf : FixedAll s S)
    (hd : s.Defined (arrOf S)) : s.Solved (arrOf S) := by
  induction s generalizing size with
  | promoted sys p s ih =>
    refine ih h.1 (S := fun n => S (s.called sys p n)) (fun c hc q hq i => ?_) hd
    refine (hf _ (List.mem_map.2 ⟨c, hc, rfl⟩) _ (List.mem_map.2 ⟨q, hq, rfl⟩) i).trans ?_
    rw [rename_total]
    have key : ∀ ins, ins = (insOf c).map (fun q => (s.called sys p q.1, q.2)) →
        seen (s.called sys p) (insOf c) (lookup (reads := ins.map Prod.fst) fun j => S (ins.map Prod.fst)[j]) =
        lookup (size := size ∘ s.called sys p) (reads := rd c) fun j => S (s.called sys p (rd c)[j]) := by
      rintro _ rfl
      exact seen_lookup S
    rw [((okOn_flat s h.1).2.1 c hc).ins q hq]
    exact congrFun (congrArg q.2.total (key _ (insOf_renOuts c))) i
  | comp outs =>
    intro inp hin p hp
    obtain ⟨e, he⟩ := hd p hp
    have hg := he inp hin
    refine ⟨rfl, ?_, hg.partials, hg.exact⟩
    obtain ⟨r, r1, r2⟩ := hg.value
    refine ⟨r, r1, fun idx hidx => ?_⟩
    obtain ⟨r', r1', r2'⟩ := (he (lookup (reads := rd outs) fun j => S (rd outs)[j])
      (fun n hn => lookup_arr (arrOf_eq S) (arrOf_zero S) hn)).value
    have hlt : ravel p.2.shape idx < size p.1 := by rw [h.1.sizeOut p hp]; exact ravel_lt hidx
    rw [r2 idx hidx, ← r2' idx hidx, ← arrOf_eq S p.1 ⟨_, hlt⟩, hf outs (List.mem_singleton_self _) p hp]
    exact (congrFun (total_of r1') _).symm
  | group genv env prog l comps sub ih =>
    obtain ⟨h1, h2⟩ := h
    obtain ⟨d1, d2⟩ := hd
    refine ⟨?_, fun u hu hk => ih u (h2 u hu hk) (fun c hc => hf c ?_) (d2 u hu hk)⟩
    · rw [named_held] at d1 ⊢
      refine fixed_solves h1 (fun u hu v B hB i => ?_) d1
      have hk : (worldOf genv prog).kind u ≠ .subsystem := by
        intro hk
        unfold Layout.outsOf at hB
        rw [show (final genv (ops prog)).kind u = .subsystem from hk] at hB
        cases hB
      refine hf _ (List.mem_flatMap.2 ⟨u, hu, ?_⟩) _ hB i
      rw [if_neg hk]
      exact List.mem_singleton_self _
    · refine List.mem_flatMap.2 ⟨u, hu, ?_⟩
      rw [if_pos hk]
      exact hc

/-- What is computed is what the components compute from it. -/
theorem run_fixedAll (s : System) (h : s.Ok size) (init : Store (FlatArr size)) :
    FixedAll s (runAll (s.all.map (s.comps size)) init) := by
  obtain ⟨h1, h2, -⟩ := ok_flat s h
  intro c hc p hp i
  obtain ⟨k, hk, rfl⟩ := List.getElem_of_mem hc
  have hm : k ∈ s.all := by simpa using hk
  have hcomp : s.comps size k = outsComp size s.flat[k] := by
    show outsComp size (s.flat.getD k []) = _
    rw [getD_lt hk]
  have hpn : p.1 ∈ (s.comps size k).writes := by
    rw [hcomp]
    exact List.mem_map.2 ⟨p, hp, rfl⟩
  rw [runAll_fixed List.nodup_range (flat_own h1) (flat_reads h1) init hm hpn]
  have hf : s.flat[k].find? (fun q => q.1 == p.1) = some p := by
    obtain ⟨b, hb, hbn, hf⟩ := outs_find (List.mem_map.2 ⟨p, hp, rfl⟩ : p.1 ∈ wr s.flat[k])
    rw [(h2 _ hc).inj b hb p hp hbn] at hf
    exact hf
  have key : ∀ (c : Comp (FlatArr size)) (S : Store (FlatArr size)), c = outsComp size s.flat[k] →
      c.f (fun j => S c.reads[j]) p.1 i =
        p.2.total (lookup (reads := rd s.flat[k]) fun j => S (rd s.flat[k])[j]) i := by
    rintro _ S rfl
    show (match s.flat[k].find? (fun q => q.1 == p.1) with
      | none => 0
      | some q => q.2.total _ i) = _
    rw [hf]
    rfl
  exact key _ _ hcomp

/-- The run leaves the independent variables and inputs alone. -/
theorem run_given (s : System) (init : Store (FlatArr size)) {n : String} (hn : s.Given n) :
    runAll (s.all.map (s.comps size)) init n = init n := by
  refine runAll_untouched s.all init fun k hk => ?_
  have hlt : k < s.flat.length := by simpa using hk
  show n ∉ wr (s.flat.getD k [])
  rw [getD_lt hlt]
  exact hn _ (List.getElem_mem _)

/-- The components that are not made by a group are defined near `p₀`. -/
def System.Near {P : Type} [TopologicalSpace P] (arr : P → String → Nat → ℝ) (p₀ : P) : System → Prop
  | .comp outs => ∀ᶠ p in nhds p₀, (System.comp outs).Defined (arr p)
  | .group genv _ prog _ comps sub => ∀ s ∈ comps, (worldOf genv prog).kind s = .subsystem → (sub s).Near arr p₀
  | .promoted sys p s => s.Near (fun q => arr q ∘ s.called sys p) p₀

theorem defined_near {P : Type} [TopologicalSpace P] {arr : P → String → Nat → ℝ} {p₀ : P}
    (ha : ∀ n i, ContinuousAt (fun p => arr p n i) p₀) (s : System) (hd : s.Defined (arr p₀)) (hn : s.Near arr p₀) :
    ∀ᶠ p in nhds p₀, s.Defined (arr p) := by
  induction s generalizing arr with
  | promoted sys p s ih => exact ih (fun n i => ha _ i) hd hn
  | comp outs => exact hn
  | group genv env prog l comps sub ih =>
    obtain ⟨d1, d2⟩ := hd
    have hval : ∀ u i, ContinuousAt (fun p => named l (worldOf genv prog) (arr p) u i) p₀ := by
      intro u i
      unfold named
      split
      · exact ha _ _
      · exact continuousAt_const
    have h2 : ∀ᶠ p in nhds p₀, ∀ u ∈ comps.toFinset, (worldOf genv prog).kind u = .subsystem → (sub u).Defined (arr p) := by
      refine (Filter.eventually_all_finset _).2 fun u hu => ?_
      have hu' : u ∈ comps := by simpa using hu
      by_cases hk : (worldOf genv prog).kind u = .subsystem
      · filter_upwards [ih u ha (d2 u hu' hk) (hn u hu' hk)] with p hp _ using hp
      · exact Filter.Eventually.of_forall fun p hk' => absurd hk' hk
    filter_upwards [runsDefined_open hval d1, h2] with p hp1 hp2
    exact ⟨hp1, fun u hu hk => hp2 u (by simpa using hu) hk⟩

/-- **C70**, for whatever OpenMDAO computes. Let the independent variables and inputs be differentiable functions of `p`
at `p₀`, let no call of any group be evaluated outside its domain when the system is run at `p₀`, and let the components
that are not made by a group be defined near `p₀`. Then for all `p` near `p₀` the groups run one inside the other without
exceptions and compute arrays that solve the equations of all groups, and forward accumulation through the partials of
all components, the only solution of OpenMDAO's linear system of total derivatives, is the derivative of everything that
is computed. -/
theorem c70_run {P : Type} [NormedAddCommGroup P] [NormedSpace ℝ P] (s : System) (h : s.Ok size)
    {init : P → Store (FlatArr size)} {p₀ : P}
    (hd : s.Defined (arrOf (runAll (s.all.map (s.comps size)) (init p₀))))
    (hn : s.Near (fun p => arrOf (runAll (s.all.map (s.comps size)) (init p))) p₀)
    {d₀ : (n : String) → P →L[ℝ] FlatArr size n} (hinit : ∀ n, HasFDerivAt (fun p => init p n) (d₀ n) p₀) :
    let S := fun p => runAll (s.all.map (s.comps size)) (init p)
    let tangents := runAll (s.all.map fun k => tangentComp P (s.comps size k) (s.partials size k) (S p₀)) d₀
    (∀ᶠ p in nhds p₀, s.run size (init p) = .ok (S p) ∧ s.Solved (arrOf (S p)) ∧
      ∀ n, s.Given n → S p n = init p n) ∧
    (∀ n, HasFDerivAt (fun p => S p n) (tangents n) p₀) ∧
    ∀ d, TotalSystem (· ∈ s.all) (s.comps size) (s.partials size) (S p₀) d₀ d ↔ d = tangents := by
  intro S tangents
  have hsol : ∀ p, s.Defined (arrOf (S p)) → s.Solved (arrOf (S p)) := fun p hp =>
    fixedAll_solved s h.on (run_fixedAll s h (init p)) hp
  have hgiv : ∀ p n, s.Given n → ∀ i, init p n i = arrOf (S p) n i := fun p n hn i => by
    rw [← arrOf_eq, show S p n = init p n from run_given s (init p) hn]
  obtain ⟨h1, h2⟩ := c70_totals s h (arrOf_zero (S p₀)) (hsol p₀ hd) (hgiv p₀) hinit
  refine ⟨?_, h1, h2⟩
  have ha : ∀ n i, ContinuousAt (fun p => arrOf (S p) n i) p₀ := by
    intro n i
    unfold arrOf
    by_cases hi : i < size n
    · simp only [dif_pos hi]
      exact (continuousAt_pi.1 (h1 n).continuousAt) ⟨i, hi⟩
    · simp only [dif_neg hi]
      exact continuousAt_const
  filter_upwards [defined_near ha s hd hn] with p hp
  obtain ⟨S', r1, r2, -⟩ := c70_values s h (arrOf_zero (S p)) (hsol p hp) (hgiv p)
  refine ⟨?_, hsol p hp, fun n hn => run_given s (init p) hn⟩
  rw [r1]
  congr 1
  funext n i
  rw [r2, ← arrOf_eq]

/-! ## What a group sees of its subsystems -/

section
variable {genv : GEnv} {env : SetupEnv} {prog : List Stmt} {l : Layout} {comps : List Ref} {sub : Ref → System}

/-- The outputs of a group are its variables and the outputs of its subsystems. -/
theorem group_writes (h : (System.group genv env prog l comps sub).OkOn size) {n : String}
    (hn : n ∈ (System.group genv env prog l comps sub).writes) :
    (∃ v, HasVar (worldOf genv prog) v ∧ (worldOf genv prog).name v = n) ∨
      ∃ s ∈ comps, (worldOf genv prog).kind s = .subsystem ∧ n ∈ (sub s).writes := by
  obtain ⟨h1, h2⟩ := h
  obtain ⟨u, hu, hm⟩ := List.mem_flatMap.1 hn
  have hlt := comps_lt h1.ok h1.arranged hu
  split at hm
  · rename_i hk
    exact Or.inr ⟨u, hu, hk, hm⟩
  · rename_i hk
    exact Or.inl ⟨u, ⟨hlt, Or.inl hk⟩, (List.mem_singleton.1 hm).symm⟩
  · rename_i hk _
    rcases mem_writes h1.ok.group.valid hlt ((compiled_realises h1 u).2 hm) with ⟨o, o1, -, o3⟩ | ⟨o1, -⟩
    · exact Or.inl ⟨o, o1, o3⟩
    · have := addedIn_kind (b := []) (by rw [List.append_nil]; exact h1.ok.group.valid) o1
      rw [List.append_nil] at this
      exact absurd this hk

/-- The inputs of a system with promotions are its inputs, under their names in the group around it. -/
theorem promoted_reads {sys : String} {p : Promotes} {s : System} {n : String} (hn : n ∈ (System.promoted sys p s).reads) :
    ∃ x ∈ s.reads, n = s.called sys p x := by
  obtain ⟨hf, hw⟩ := List.mem_filter.1 hn
  have hw' : n ∉ (System.promoted sys p s).writes := by simpa using hw
  obtain ⟨d, hd, hnd⟩ := List.mem_flatMap.1 hf
  obtain ⟨c, hc, rfl⟩ := List.mem_map.1 hd
  change n ∈ rd (renOuts _ c) at hnd
  rw [rd_renOuts] at hnd
  obtain ⟨x, hx, rfl⟩ := List.mem_map.1 hnd
  rcases List.mem_append.1 (rd_names s hc hx) with h | h
  · exact ⟨x, h, rfl⟩
  · exact absurd (List.mem_map.2 ⟨x, h, rfl⟩) hw'

/-- The inputs of a group are inputs that it declares, and inputs of its subsystems. -/
theorem group_reads (h : (System.group genv env prog l comps sub).OkOn size) {n : String}
    (hn : n ∈ (System.group genv env prog l comps sub).reads) :
    (∃ v, Returned genv (ops prog) v ∧ (worldOf genv prog).kind v = .input ∧ (worldOf genv prog).name v = n) ∨
      ∃ s ∈ comps, (worldOf genv prog).kind s = .subsystem ∧ n ∈ (sub s).reads := by
  obtain ⟨h1, h2⟩ := h
  obtain ⟨hf, hw⟩ := List.mem_filter.1 hn
  have hw' : n ∉ (System.group genv env prog l comps sub).writes := by simpa using hw
  obtain ⟨c, hc, hnc⟩ := List.mem_flatMap.1 hf
  obtain ⟨u, hu, hcu⟩ := List.mem_flatMap.1 hc
  split at hcu
  · rename_i hk
    refine Or.inr ⟨u, hu, hk, List.mem_filter.2 ⟨List.mem_flatMap.2 ⟨c, hcu, hnc⟩, ?_⟩⟩
    have : n ∉ (sub u).writes := fun hm => hw' (List.mem_flatMap.2 ⟨u, hu, by rw [hk]; exact hm⟩)
    simpa using this
  · obtain rfl := List.mem_singleton.1 hcu
    rcases comps_cases h1 hu with ⟨-, h3⟩ | ⟨refs, hcp⟩
    · rw [show l.outsOf (worldOf genv prog) (wiresOf genv prog) u = [] from h3] at hnc
      cases hnc
    · obtain ⟨q, hq, rfl⟩ := List.mem_map.1 hnc
      obtain ⟨v, hv, rfl⟩ := hcp.insOf_wired.2.1 q hq
      obtain ⟨hr, hd⟩ := hcp.needs v hv
      rcases (operand_valued h1 hu hr hd).2 with hk | ⟨d, hdc, hwr⟩
      · exact Or.inl ⟨v, hr, hk, rfl⟩
      · exfalso
        apply hw'
        refine List.mem_flatMap.2 ⟨d, hdc, ?_⟩
        rcases comps_cases h1 hdc with ⟨hk, -⟩ | ⟨refs', hcp'⟩
        · rcases hk with hk | hk
          · rw [show (worldOf genv prog).kind d = .indep from hk]
            rcases hwr with hi | ⟨-, rfl⟩
            · have := (itemOf_kind h1.ok.group.valid hi).2
              rw [this] at hk
              cases hk
            · exact List.mem_singleton_self _
          · exfalso
            rcases hwr with hi | ⟨-, rfl⟩
            · have := (itemOf_kind h1.ok.group.valid hi).2
              rw [this] at hk
              cases hk
            · rcases (returned_kind h1.ok.group.valid hr).2 with h4 | h4 | h4 | h4 | h4 <;> rw [hk] at h4 <;> cases h4
        · have hm := hcp'.own v hr hwr
          have hne : l.outsOf (worldOf genv prog) (wiresOf genv prog) d ≠ [] := hcp'.nonempty
          split
          · rename_i hk
            exfalso
            apply hne
            unfold Layout.outsOf
            rw [hk]
          · rename_i hk
            exfalso
            apply hne
            unfold Layout.outsOf
            rw [hk]
          · exact hm

end

end
end OM

import Verif.Model.Solvers
import Verif.Props.Feedback
import Verif.Props.Nested

/-!
# Groups inside groups, with feedback and solvers (C78)

Any group of a system may have feedback: outputs defined in terms of themselves, or subsystems that use each other's
outputs. Here: what holds of the arrays at which the solvers of all groups have converged.
-/

namespace OM
open Spec

/-- The groups that are run once have no feedback: everything is run after what it uses. -/
def System.Sequential (once : System → Prop) (size : String → Nat) : System → Prop
  | .comp _ => True
  | .group genv env prog l comps sub =>
      (once (.group genv env prog l comps sub) → CompiledPart genv env (interface sub) prog l comps size) ∧
      ∀ s ∈ comps, (worldOf genv prog).kind s = .subsystem → (sub s).Sequential once size
  | .promoted sys p s => s.Sequential once (size ∘ s.called sys p)

/-! ## Passes -/

section
variable {V : String → Type} {f : Ref → Store V → Store V → Prop} {w : Ref → String → Prop}

theorem sweep_frame {l : List Ref} (hf : ∀ u ∈ l, ∀ S T, f u S T → ∀ n, ¬ w u n → T n = S n) {S T : Store V}
    (h : sweep f l S T) {n : String} (hn : ∀ u ∈ l, ¬ w u n) : T n = S n := by
  induction l generalizing S with
  | nil => cases h; rfl
  | cons u l ih =>
    obtain ⟨A, h1, h2⟩ := h
    rw [ih (fun v hv => hf v (by simp [hv])) h2 fun v hv => hn v (by simp [hv])]
    exact hf u (by simp) S A h1 n (hn u (by simp))

theorem sweep_append {p q : List Ref} {S T : Store V} : sweep f (p ++ q) S T ↔ ∃ A, sweep f p S A ∧ sweep f q A T := by
  induction p generalizing S with
  | nil => exact ⟨fun h => ⟨S, rfl, h⟩, by rintro ⟨A, rfl, h⟩; exact h⟩
  | cons u p ih =>
    constructor
    · rintro ⟨B, h1, h2⟩
      obtain ⟨A, h3, h4⟩ := ih.1 h2
      exact ⟨A, ⟨B, h1, h3⟩, h4⟩
    · rintro ⟨A, ⟨B, h1, h3⟩, h4⟩
      exact ⟨B, h1, ih.2 ⟨A, h3, h4⟩⟩

/-- A pass that changes nothing changes nothing in between. -/
theorem sweep_same {l : List Ref} (hnd : l.Nodup) (hf : ∀ u ∈ l, ∀ S T, f u S T → ∀ n, ¬ w u n → T n = S n)
    (hown : ∀ u ∈ l, ∀ v ∈ l, ∀ n, w u n → w v n → u = v) {T : Store V} (h : sweep f l T T) :
    ∀ u ∈ l, f u T T := by
  intro u hu
  obtain ⟨p, q, rfl⟩ := List.append_of_mem hu
  obtain ⟨A, h1, B, h2, h3⟩ := sweep_append.1 h
  have hndp := List.nodup_append.1 hnd
  have hA : A = T := by
    funext n
    by_cases hn : ∃ v ∈ p, w v n
    · obtain ⟨v, hv, hvn⟩ := hn
      have : ∀ x ∈ u :: q, ¬ w x n := by
        intro x hx hxn
        obtain rfl := hown v (by simp [hv]) x (List.mem_append.2 (Or.inr hx)) n hvn hxn
        exact hndp.2.2 v hv v hx rfl
      exact (sweep_frame (l := u :: q) (fun x hx => hf x (List.mem_append.2 (Or.inr hx))) ⟨B, h2, h3⟩ this).symm
    · exact sweep_frame (fun x hx => hf x (by simp [hx])) h1 fun v hv hvn => hn ⟨v, hv, hvn⟩
  subst hA
  have hB : B = A := by
    funext n
    by_cases hn : w u n
    · refine (sweep_frame (fun x hx => hf x (by simp [hx])) h3 fun x hx hxn => ?_).symm
      obtain rfl := hown u (by simp) x (by simp [hx]) n hn hxn
      exact (List.nodup_cons.1 hndp.2.1).1 hx
    · exact hf u (by simp) _ _ h2 n hn
  subst hB
  exact h2

end

/-! ## One component -/

section
variable {size : String → Nat} {c : List (String × Built)} {S T : Store (FlatArr size)}

theorem run_frame (h : (outsCompE size c).run S = .ok T) {n : String} (hn : n ∉ wr c) : T n = S n := by
  rw [← outsCompE_eq h]
  unfold Comp.run
  exact if_neg hn

/-- Whether a component changes something depends on its variables only. -/
theorem run_stays (h : (outsCompE size c).run S = .ok S) (hr : ∀ n ∈ rd c, T n = S n) (hw : ∀ n ∈ wr c, T n = S n) :
    (outsCompE size c).run T = .ok T := by
  have hx : (fun i : Fin (outsCompE size c).reads.length => T (outsCompE size c).reads[i]) =
      fun i => S (outsCompE size c).reads[i] := by
    funext i
    exact hr _ (List.getElem_mem _)
  unfold CompE.run at h ⊢
  rw [hx]
  split at h
  · cases h
  · rename_i r hr'
    have h' := Except.ok.inj h
    rw [hr']
    simp only
    congr 1
    funext n
    split
    · rename_i hn
      have := congrFun h' n
      rw [if_pos hn] at this
      rw [this, hw n hn]
    · rfl

/-- A component that does not use its outputs changes nothing when it is run again. -/
theorem run_again (h : (outsCompE size c).run S = .ok T) (hd : ∀ n ∈ rd c, n ∉ wr c) :
    (outsCompE size c).run T = .ok T := by
  have hx : (fun i : Fin (outsCompE size c).reads.length => T (outsCompE size c).reads[i]) =
      fun i => S (outsCompE size c).reads[i] := by
    funext i
    exact run_frame h (hd _ (List.getElem_mem _))
  have h0 := h
  unfold CompE.run at h ⊢
  rw [hx]
  split at h
  · cases h
  · rename_i r hr'
    have h' := Except.ok.inj h
    rw [hr']
    simp only
    congr 1
    funext n
    split
    · rename_i hn
      have := congrFun h' n
      rw [if_pos hn] at this
      exact this
    · rfl

/-- What a component computes and changes nothing. -/
theorem stays_total (hs : Shaped size c) (h : (outsCompE size c).run S = .ok S) {p : String × Built} (hp : p ∈ c)
    (i : Fin (size p.1)) : S p.1 i = p.2.total (lookup (reads := rd c) fun j => S (rd c)[j]) i := by
  have hpn : p.1 ∈ wr c := List.mem_map.2 ⟨p, hp, rfl⟩
  have h1 := congrFun (congrFun (outsCompE_eq h) p.1) i
  unfold Comp.run at h1
  rw [if_pos (show p.1 ∈ (outsComp size c).writes from hpn)] at h1
  obtain ⟨b, hb, hbn, hf⟩ := outs_find hpn
  rw [hs.inj b hb p hp hbn] at hf
  rw [← h1]
  show (match c.find? (fun q => q.1 == p.1) with
    | none => 0
    | some q => q.2.total _ i) = _
  rw [hf]
  rfl

/-- A component leaves the arrays that it computes as they are. -/
theorem holds_stays (hs : Shaped size c) (hh : Holds (arrOf S) c) : (outsCompE size c).run S = .ok S := by
  have hgood := hh _ (fun n hn => lookup_arr (arrOf_eq S) (arrOf_zero S) hn)
  rw [outsCompE_run fun b hb => ?_]
  · refine congrArg Except.ok (funext fun n => ?_)
    unfold Comp.run
    split
    · rename_i hm
      obtain ⟨b, hb, rfl, hf⟩ := outs_find (show n ∈ wr c from hm)
      funext i
      show (match c.find? (fun p => p.1 == b.1) with
        | none => 0
        | some p => p.2.total _ i) = _
      rw [hf]
      obtain ⟨r, r1, r2⟩ := (hgood b hb).value
      have hlt : i.1 < prodShape b.2.shape := by rw [← hs.sizeOut b hb]; exact i.2
      have := r2 _ (unravel_inBounds hlt)
      rw [ravel_unravel hlt] at this
      rw [arrOf_eq S b.1 i, ← this]
      exact congrFun (total_of r1) i.1
    · rfl
  · obtain ⟨r, r1, -⟩ := (hgood b hb).value
    exact ⟨r, r1⟩

end

section
variable {size : String → Nat}

/-! ## Runs -/

/-- A run changes outputs of components only. -/
theorem runsTo_frame {once : System → Prop} (s : System) {ρ : String → String} {S T : Store (FlatArr size)}
    (h : s.RunsTo once size ρ S T) {n : String} (hn : ∀ c ∈ s.flat, n ∉ wr (renOuts ρ c)) : T n = S n := by
  induction s generalizing ρ S T n with
  | comp outs => exact run_frame h (hn outs (List.mem_singleton_self _))
  | promoted sys p s ih =>
    refine ih (ρ := ρ ∘ s.called sys p) h fun c hc => ?_
    rw [← renOuts_renOuts]
    exact hn _ (List.mem_map.2 ⟨c, hc, rfl⟩)
  | group genv env prog l comps sub ih =>
    have hpass : ∀ {A B : Store (FlatArr size)}, sweep (fun u s t =>
        if (worldOf genv prog).kind u = .subsystem then (sub u).RunsTo once size ρ s t
        else (outsCompE size (renOuts ρ (l.outsOf (worldOf genv prog) (wiresOf genv prog) u))).run s = .ok t) comps A B →
        B n = A n := by
      intro A B h
      refine sweep_frame (w := fun u n => u ∈ comps ∧ ∃ c ∈ blockOf genv prog l sub u, n ∈ wr (renOuts ρ c)) ?_ h ?_
      · intro u hu A B h n hn
        split at h
        · rename_i hk
          refine ih u h fun c hc hw => hn ⟨hu, c, ?_, hw⟩
          rw [blockOf, if_pos hk]
          exact hc
        · rename_i hk
          refine run_frame h fun hw => hn ⟨hu, _, ?_, hw⟩
          rw [blockOf, if_neg hk]
          exact List.mem_singleton_self _
      · rintro u hu ⟨-, c, hc, hw⟩
        exact hn c (List.mem_flatMap.2 ⟨u, hu, hc⟩) hw
    rcases h with ⟨-, h⟩ | ⟨h, -⟩
    · exact hpass h
    · clear ih
      induction h with
      | refl => rfl
      | tail _ h1 ih => rw [hpass h1, ih]

/-- A run ends at arrays that every component leaves as they are. -/
theorem runsTo_stays {once : System → Prop} (s : System) {ρ : String → String} (h : s.OkOn (size ∘ ρ))
    (hq : s.Sequential once (size ∘ ρ))
    (hρ : ∀ m ∈ s.reads ++ s.writes, ∀ n ∈ s.reads ++ s.writes, ρ m = ρ n → m = n) {S T : Store (FlatArr size)}
    (hr : s.RunsTo once size ρ S T) : ∀ c ∈ s.flat, (outsCompE size (renOuts ρ c)).run T = .ok T := by
  induction s generalizing ρ S T with
  | comp outs =>
    intro c hc
    obtain rfl := List.mem_singleton.1 hc
    refine run_again hr fun n hn hw => ?_
    rw [rd_renOuts] at hn
    rw [wr_renOuts] at hw
    obtain ⟨x, hx, rfl⟩ := List.mem_map.1 hn
    obtain ⟨y, hy, hxy⟩ := List.mem_map.1 hw
    have hc' : c ∈ (System.comp c).flat := List.mem_singleton_self _
    obtain rfl := hρ y (by simp [okOn_flat _ h |>.2.2 c hc' y hy]) x (rd_names _ hc' hx) hxy
    exact h.2 y hx hy
  | promoted sys p s ih =>
    intro d hd
    obtain ⟨c, hc, rfl⟩ := List.mem_map.1 hd
    rw [renOuts_renOuts]
    refine ih (ρ := ρ ∘ s.called sys p) h.1 hq ?_ hr c hc
    have hin : ∀ x ∈ s.reads ++ s.writes, s.called sys p x ∈
        (System.promoted sys p s).reads ++ (System.promoted sys p s).writes := by
      intro x hx
      rcases List.mem_append.1 hx with hx | hx
      · obtain ⟨c, hc, hxc⟩ := List.mem_flatMap.1 (List.mem_filter.1 hx).1
        refine rd_names _ (List.mem_map.2 ⟨c, hc, rfl⟩) ?_
        rw [rd_renOuts]
        exact List.mem_map.2 ⟨x, hxc, rfl⟩
      · exact List.mem_append.2 (Or.inr (List.mem_map.2 ⟨x, hx, rfl⟩))
    intro m hm n hn e
    exact h.2 m hm n hn (hρ _ (hin m hm) _ (hin n hn) e)
  | group genv env prog l comps sub ih =>
    obtain ⟨h1, h2⟩ := h
    obtain ⟨q1, q2⟩ := hq
    set σ := System.group genv env prog l comps sub with hσ
    have hok : σ.OkOn (size ∘ ρ) := ⟨h1, h2⟩
    set ic := compOf (interface sub) (worldOf genv prog) (wiresOf genv prog) with hic
    have hflat : ∀ u ∈ comps, ∀ c ∈ blockOf genv prog l sub u, c ∈ σ.flat := fun u hu c hc =>
      List.mem_flatMap.2 ⟨u, hu, hc⟩
    have hwn : ∀ u ∈ comps, ∀ c ∈ blockOf genv prog l sub u, ∀ n ∈ wr c, n ∈ σ.reads ++ σ.writes := fun u hu c hc n hn =>
      List.mem_append.2 (Or.inr ((okOn_flat σ hok).2.2 c (hflat u hu c hc) n hn))
    have hrn : ∀ u ∈ comps, ∀ c ∈ blockOf genv prog l sub u, ∀ n ∈ rd c, n ∈ σ.reads ++ σ.writes := fun u hu c hc n hn =>
      rd_names σ (hflat u hu c hc) hn
    have hwic : ∀ u ∈ comps, ∀ c ∈ blockOf genv prog l sub u, ∀ n ∈ wr c, n ∈ (ic u).writes := by
      intro u hu c hc n hn
      unfold blockOf at hc
      split at hc
      · rename_i hk
        rw [hic]
        unfold compOf
        rw [hk]
        exact (okOn_flat _ (h2 u hu hk)).2.2 c hc n hn
      · obtain rfl := List.mem_singleton.1 hc
        exact (compiled_realises h1 u).2 hn
    have hown : ∀ u ∈ comps, ∀ v ∈ comps, ∀ n, n ∈ (ic u).writes → n ∈ (ic v).writes → u = v := fun u hu v hv n h3 h4 =>
      program_own h1.ok (comps_lt h1.ok h1.arranged hu) (comps_lt h1.ok h1.arranged hv) h3 h4
    -- what the block of an object writes, under the names outside
    set w : Ref → String → Prop := fun u n => u ∈ comps ∧ ∃ c ∈ blockOf genv prog l sub u, n ∈ wr (renOuts ρ c) with hw
    set f : Ref → Store (FlatArr size) → Store (FlatArr size) → Prop := fun u s t =>
        if (worldOf genv prog).kind u = .subsystem then (sub u).RunsTo once size ρ s t
        else (outsCompE size (renOuts ρ (l.outsOf (worldOf genv prog) (wiresOf genv prog) u))).run s = .ok t with hf
    have hframe : ∀ u ∈ comps, ∀ A B, f u A B → ∀ n, ¬ w u n → B n = A n := by
      intro u hu A B h n hn
      simp only [hf] at h
      split at h
      · rename_i hk
        refine runsTo_frame _ h fun c hc hw => hn ⟨hu, c, ?_, hw⟩
        rw [blockOf, if_pos hk]
        exact hc
      · rename_i hk
        refine run_frame h fun hw => hn ⟨hu, _, ?_, hw⟩
        rw [blockOf, if_neg hk]
        exact List.mem_singleton_self _
    have hwown : ∀ u ∈ comps, ∀ v ∈ comps, ∀ n, w u n → w v n → u = v := by
      rintro u hu v hv n ⟨-, c, hc, hn⟩ ⟨-, c', hc', hn'⟩
      rw [wr_renOuts] at hn hn'
      obtain ⟨x, hx, rfl⟩ := List.mem_map.1 hn
      obtain ⟨y, hy, hxy⟩ := List.mem_map.1 hn'
      obtain rfl := hρ y (hwn v hv c' hc' y hy) x (hwn u hu c hc x hx) hxy
      exact hown u hu v hv y (hwic u hu c hc y hx) (hwic v hv c' hc' y hy)
    have hsub : ∀ u ∈ comps, (worldOf genv prog).kind u = .subsystem → ∀ {A B : Store (FlatArr size)},
        (sub u).RunsTo once size ρ A B → ∀ c ∈ (sub u).flat, (outsCompE size (renOuts ρ c)).run B = .ok B := by
      intro u hu hk A B hAB
      have hin : ∀ x ∈ (sub u).reads ++ (sub u).writes, x ∈ σ.reads ++ σ.writes := by
        intro x hx
        rcases List.mem_append.1 hx with hx | hx
        · obtain ⟨c, hc, hxc⟩ := List.mem_flatMap.1 (List.mem_filter.1 hx).1
          refine rd_names σ (hflat u hu c ?_) hxc
          rw [blockOf, if_pos hk]
          exact hc
        · refine List.mem_append.2 (Or.inr (List.mem_flatMap.2 ⟨u, hu, ?_⟩))
          rw [hk]
          exact hx
      exact ih u (h2 u hu hk) (q2 u hu hk) (fun m hm n hn => hρ m (hin m hm) n (hin n hn)) hAB
    intro c hc
    obtain ⟨u, hu, hcu⟩ := List.mem_flatMap.1 hc
    rcases hr with ⟨ho, hr⟩ | ⟨-, hr⟩
    · -- one pass through a group without feedback
      have hp := q1 ho
      obtain ⟨a, b, rfl⟩ := List.append_of_mem hu
      obtain ⟨A, hA, B, hAB, hB⟩ := sweep_append.1 hr
      have hnd := h1.arranged.nodup
      have hlater : ∀ x, x ∈ (ic u).writes ∨ ReadOk ic (a ++ u :: b) u x → x ∈ σ.reads ++ σ.writes →
          ∀ v ∈ b, ¬ w v (ρ x) := by
        rintro x hx hxn v hv ⟨hvc, d, hd, hn⟩
        rw [wr_renOuts] at hn
        obtain ⟨y, hy, hxy⟩ := List.mem_map.1 hn
        obtain rfl := hρ y (hwn v hvc d hd y hy) x hxn hxy
        have hyv := hwic v hvc d hd y hy
        have hub : u ∉ b := (List.nodup_cons.1 (List.nodup_append.1 hnd).2.1).1
        rcases hx with hx | hx | ⟨v', ⟨p, q, s, e⟩, hx⟩
        · obtain rfl := hown u hu v hvc y hx hyv
          exact hub hv
        · exact hx v hvc hyv
        · have hv' : v' ∈ a ++ u :: b := by rw [e]; simp
          obtain rfl := hown v' hv' v hvc y hx hyv
          have e' : a ++ u :: b = (p ++ v' :: q) ++ u :: s := by rw [e]; simp
          have ha : u ∉ a := fun hh => (List.nodup_append.1 hnd).2.2 u hh u (by simp) rfl
          have hnd2 : ((p ++ v' :: q) ++ u :: s).Nodup := e' ▸ hnd
          have ha' : u ∉ p ++ v' :: q := fun hh => (List.nodup_append.1 hnd2).2.2 u hh u (by simp) rfl
          have hva : v' ∈ a := by rw [(split_unique e' ha ha').1]; simp
          exact (List.nodup_append.1 hnd).2.2 v' hva v' (by simp [hv]) rfl
      have hkeep : ∀ x, x ∈ (ic u).writes ∨ ReadOk ic (a ++ u :: b) u x → x ∈ σ.reads ++ σ.writes → T (ρ x) = B (ρ x) :=
        fun x hx hxn => sweep_frame (fun v hv => hframe v (by simp [hv])) hB (hlater x hx hxn)
      have hreal := compiled_realises h1
      have hread : ∀ x ∈ (ic u).reads, ReadOk ic (a ++ u :: b) u x := fun x hx =>
        program_reads hp.program (oldNames hp.toCompiledOn) hp.arranged hp.order hu hx
      have hstay : (outsCompE size (renOuts ρ c)).run B = .ok B := by
        split at hAB
        · rename_i hk
          refine hsub u hu hk hAB c ?_
          rw [if_pos hk] at hcu
          exact hcu
        · rename_i hk
          rw [if_neg hk] at hcu
          obtain rfl := List.mem_singleton.1 hcu
          refine run_again hAB fun n hn hw => ?_
          rw [rd_renOuts] at hn
          rw [wr_renOuts] at hw
          obtain ⟨x, hx, rfl⟩ := List.mem_map.1 hn
          obtain ⟨y, hy, hxy⟩ := List.mem_map.1 hw
          have hcb : l.outsOf (worldOf genv prog) (wiresOf genv prog) u ∈ blockOf genv prog l sub u := by
            rw [blockOf, if_neg hk]; exact List.mem_singleton_self _
          obtain rfl := hρ y (hwn u hu _ hcb y hy) x (hrn u hu _ hcb x hx) hxy
          rcases hread y ((hreal u).1 hx) with h3 | ⟨v, ⟨p, q, s, e⟩, h4⟩
          · exact h3 u hu ((hreal u).2 hy)
          · have hv : v ∈ a ++ u :: b := by rw [e]; simp
            obtain rfl := hown u hu v hv y ((hreal u).2 hy) h4
            rw [e] at hnd
            have := (List.nodup_append.1 hnd).2.1
            simp at this
      have hcb : c ∈ blockOf genv prog l sub u := hcu
      refine run_stays hstay (fun n hn => ?_) fun n hn => ?_
      · rw [rd_renOuts] at hn
        obtain ⟨x, hx, rfl⟩ := List.mem_map.1 hn
        refine hkeep x ?_ (hrn u hu c hcb x hx)
        split at hcu
        · rename_i hk
          have hicu : ic u = ⟨(sub u).reads, (sub u).writes, fun x n => ()⟩ := by
            rw [hic]
            unfold compOf
            rw [hk]
            rfl
          by_cases hxw : x ∈ (sub u).writes
          · left
            rw [hicu]
            exact hxw
          · right
            refine hread x ?_
            rw [hicu]
            exact List.mem_filter.2 ⟨List.mem_flatMap.2 ⟨c, hcu, hx⟩, by simpa using hxw⟩
        · obtain rfl := List.mem_singleton.1 hcu
          exact Or.inr (hread x ((hreal u).1 hx))
      · rw [wr_renOuts] at hn
        obtain ⟨x, hx, rfl⟩ := List.mem_map.1 hn
        exact hkeep x (Or.inl (hwic u hu c hcb x hx)) (hwn u hu c hcb x hx)
    · -- a pass that changes nothing
      have := sweep_same h1.arranged.nodup hframe hwown hr u hu
      rw [hf] at this
      split at this
      · rename_i hk
        rw [if_pos hk] at hcu
        exact hsub u hu hk this c hcu
      · rename_i hk
        rw [if_neg hk] at hcu
        obtain rfl := List.mem_singleton.1 hcu
        exact this

/-! ## Converged arrays -/

/-- Arrays that solve the equations are in the domains of all calls. -/
theorem solved_defined (s : System) {arr : String → Nat → ℝ} (h : s.Solved arr) : s.Defined arr := by
  induction s generalizing arr with
  | comp outs => exact fun p hp => ⟨_, fun inp hin => h inp hin p hp⟩
  | promoted sys p s ih => exact ih h
  | group genv env prog l comps sub ih =>
    exact ⟨fun a c b hp hu => (h.1.expr a c b hp hu).1, fun u hu hk => ih u (h.2 u hu hk)⟩

/-- Where the calls are defined, every component computes something and has exact partials. -/
theorem defined_good (s : System) (h : s.OkOn size) {arr : String → Nat → ℝ} (hz : ∀ n i, size n ≤ i → arr n i = 0)
    (hd : s.Defined arr) : ∀ c ∈ s.flat, ∀ p ∈ c, ∀ inp, (∀ n ∈ rd c, inp n = arr n) → ∃ e, p.2.Good p.2.shape e inp := by
  induction s generalizing size arr with
  | comp outs =>
    intro c hc p hp inp hin
    obtain rfl := List.mem_singleton.1 hc
    obtain ⟨e, he⟩ := hd p hp
    exact ⟨e, he inp hin⟩
  | promoted sys q s ih =>
    intro d hd' p' hp' inp hin
    obtain ⟨c, hc, rfl⟩ := List.mem_map.1 hd'
    obtain ⟨p, hp, rfl⟩ := List.mem_map.1 hp'
    have hs := (okOn_flat s h.1).2.1 c hc
    have hi := hs.ins p hp
    obtain ⟨e, he⟩ := ih h.1 (fun n i hi => hz _ i hi) hd c hc p hp (seen (s.called sys q) p.2.ins inp) (by
      intro n hn
      unfold seen
      rw [if_pos (by rw [hi]; exact hn)]
      exact hin _ (by rw [rd_renOuts]; exact List.mem_map.2 ⟨n, hn, rfl⟩))
    exact ⟨e, good_rename (by rw [hi]; exact hs.nodup)
      (by rw [hi]; exact fun x hx y hy => h.2 x (rd_names s hc hx) y (rd_names s hc hy)) he⟩
  | group genv env prog l comps sub ih =>
    intro c hc p hp inp hin
    obtain ⟨u, hu, hcu⟩ := List.mem_flatMap.1 hc
    split at hcu
    · rename_i hk
      exact ih u (h.2 u hu hk) hz (hd.2 u hu hk) c hcu p hp inp hin
    · obtain rfl := List.mem_singleton.1 hcu
      rcases comps_cases h.1 hu with ⟨-, h1⟩ | ⟨refs, hc⟩
      · rw [show l.outsOf (worldOf genv prog) (wiresOf genv prog) u = [] from h1] at hp
        cases hp
      · refine hc.smooth p hp _ hd.1 inp fun v hv => ?_
        rw [hin _ (hc.insOf_wired.2.2 v hv)]
        funext i
        unfold named
        split
        · rfl
        · exact hz _ _ (by rw [h.1.size v (hc.needs v hv).1]; omega)

/-- **C78**, convergence. Where the calls of all groups are defined, every component of a system leaves the arrays as they
are exactly if these solve the equations of all groups, those that define outputs in terms of themselves included, and
the other components compute them. -/
theorem c78_converged (s : System) (h : s.OkOn size) (S : Store (FlatArr size)) :
    ((∀ c ∈ s.flat, (outsCompE size c).run S = .ok S) ∧ s.Defined (arrOf S)) ↔ s.Solved (arrOf S) := by
  have hs := (okOn_flat s h).2.1
  constructor
  · rintro ⟨h1, h2⟩
    exact fixedAll_solved s h (fun c hc p hp i => stays_total (hs c hc) (h1 c hc) hp i) h2
  · intro h1
    exact ⟨fun c hc => holds_stays (hs c hc) (solved_holds s h (arrOf_zero S) h1 c hc), solved_defined s h1⟩

/-- **C78**, runs. Let every group with feedback be iterated, with whatever is inside, until nothing changes, while groups
without feedback may be run once. Then the arrays at the end, if the calls of all groups are defined there, solve the
equations of all groups, and the independent variables and inputs are those given. -/
theorem c78_runs {once : System → Prop} (s : System) (h : s.OkOn size) (hq : s.Sequential once size)
    {S T : Store (FlatArr size)} (hr : s.RunsTo once size id S T) (hd : s.Defined (arrOf T)) :
    s.Solved (arrOf T) ∧ ∀ n, s.Given n → T n = S n := by
  have hs := (okOn_flat s h).2.1
  refine ⟨(c78_converged s h T).1 ⟨fun c hc => ?_, hd⟩, fun n hn => runsTo_frame s hr fun c hc hw => ?_⟩
  · rw [← renOuts_id (hs c hc).ins]
    exact runsTo_stays s h hq (fun m _ n _ e => e) hr c hc
  · rw [wr_renOuts, List.map_id] at hw
    exact hn c hc hw

/-- **C78**, partial derivatives: they can be computed and are exact at all arrays at which the calls are defined, not only
at those that solve the equations. -/
theorem c78_partials (s : System) (h : s.OkOn size) {S : Store (FlatArr size)} (hd : s.Defined (arrOf S)) :
    (∀ k ∈ s.all, (s.partials size k).ExactAt fun i => S (s.comps size k).reads[i]) ∧
    ∀ c ∈ s.flat, ∀ p ∈ c, ∃ q, p.2.partials (lookup (reads := rd c) fun i => S (rd c)[i]) = .ok q := by
  have hg := defined_good s h (arrOf_zero S) hd
  refine ⟨fun k hk => ?_, fun c hc p hp => ?_⟩
  · have hlt : k < s.flat.length := by simpa using hk
    have hm : s.flat.getD k [] ∈ s.flat := by rw [getD_lt hlt]; exact List.getElem_mem _
    have hs := (okOn_flat s h).2.1 _ hm
    refine outs_exactAt hs.nodup hs.sizeIn hs.sizeOut _ fun p hp => ?_
    obtain ⟨e, he⟩ := hg _ hm p hp _ fun n hn => lookup_arr (arrOf_eq S) (arrOf_zero S) hn
    have := he.exact
    rw [hs.ins p hp] at this
    exact this
  · obtain ⟨e, he⟩ := hg c hc p hp _ fun n hn => lookup_arr (arrOf_eq S) (arrOf_zero S) hn
    exact he.partials

theorem comps_own (s : System) (h : s.OkOn size) : OwnNames (· ∈ s.all) (s.comps size) := by
  have hp := (okOn_flat s h).1
  intro u v n hu hv h1 h2
  simp only [List.mem_range] at hu hv
  simp only [System.comps, flatComp, outsComp, getD_lt hu, getD_lt hv] at h1 h2
  rcases lt_trichotomy u v with hlt | rfl | hlt
  · exact absurd h2 (List.pairwise_iff_getElem.1 hp u v hu hv hlt n h1)
  · rfl
  · exact absurd h1 (List.pairwise_iff_getElem.1 hp v u hv hu hlt n h2)

/-- A run without exceptions, with every group run once. -/
theorem run_comps (s : System) (h : s.OkOn size) {S T : Store (FlatArr size)} (hr : s.run size S = .ok T) :
    runAll (s.all.map (s.comps size)) S = T := by
  rw [run_flat s (okOn_flat s h).2.1] at hr
  rw [comps_map]
  generalize s.flat = cs at hr
  induction cs generalizing S with
  | nil => cases hr; rfl
  | cons c cs ih =>
    simp only [List.map_cons, runAllE] at hr
    split at hr
    · cases hr
    · rename_i t ht
      show runAll (cs.map (outsComp size)) ((outsComp size c).run S) = T
      rw [outsCompE_eq ht]
      exact ih hr

theorem stays_iff (s : System) (h : s.OkOn size) (S : Store (FlatArr size)) (hd : s.Defined (arrOf S)) :
    runAll (s.all.map (s.comps size)) S = S ↔ s.Solved (arrOf S) := by
  rw [← c78_converged s h S, runAll_fixed_iff List.nodup_range (comps_own s h) S]
  have hs := (okOn_flat s h).2.1
  have hg := defined_good s h (arrOf_zero S) hd
  have hrun : ∀ c ∈ s.flat, (outsCompE size c).run S = .ok ((outsComp size c).run S) := fun c hc =>
    outsCompE_run fun b hb => by
      obtain ⟨e, he⟩ := hg c hc b hb _ fun n hn => lookup_arr (arrOf_eq S) (arrOf_zero S) hn
      obtain ⟨r, r1, -⟩ := he.value
      exact ⟨r, r1⟩
  let stay : Comp (FlatArr size) → Prop := fun c => ∀ n ∈ c.writes, S n = c.f (fun i => S c.reads[i]) n
  have hcomp : ∀ {k} (hk : k < s.flat.length), s.comps size k = outsComp size s.flat[k] := by
    intro k hk
    show outsComp size (s.flat.getD k []) = _
    rw [getD_lt hk]
  constructor
  · refine fun h1 => ⟨fun c hc => ?_, hd⟩
    obtain ⟨k, hk, rfl⟩ := List.getElem_of_mem hc
    rw [hrun _ hc]
    have h2 : stay (s.comps size k) := h1 k (by simpa using hk)
    rw [hcomp hk] at h2
    congr 1
    funext n
    unfold Comp.run
    split
    · rename_i hn; exact (h2 n hn).symm
    · rfl
  · rintro ⟨h1, -⟩ k hk
    have hlt : k < s.flat.length := by simpa using hk
    have h2 := h1 _ (List.getElem_mem hlt)
    rw [hrun _ (List.getElem_mem hlt)] at h2
    show stay (s.comps size k)
    rw [hcomp hlt]
    intro n hn
    have h3 := congrFun (Except.ok.inj h2) n
    unfold Comp.run at h3
    rw [if_pos hn] at h3
    exact h3.symm

/-- **C78**, iteration. If a system, with every group run once, is run again and again without exceptions, starting from
any arrays, and the arrays converge to some at which the calls of all groups are defined, these solve the equations of all
groups. The independent variables and inputs keep their arrays. -/
theorem c78_iteration (s : System) (h : s.OkOn size) {t : Nat → Store (FlatArr size)} {S : Store (FlatArr size)}
    (hrun : ∀ k, s.run size (t k) = .ok (t (k + 1)))
    (hlim : ∀ n, Filter.Tendsto (fun k => t k n) Filter.atTop (nhds (S n))) (hd : s.Defined (arrOf S)) :
    s.Solved (arrOf S) ∧ ∀ n, s.Given n → S n = t 0 n := by
  have hit : ∀ k, t k = (runAll (s.all.map (s.comps size)))^[k] (t 0) := by
    intro k
    induction k with
    | zero => rfl
    | succ k ih =>
      rw [Function.iterate_succ_apply', ← ih]
      exact (run_comps s h (hrun k)).symm
  refine ⟨(stays_iff s h S hd).1 ?_, fun n hn => ?_⟩
  · exact iterates_fixed List.nodup_range (comps_own s h) (fun n => (hlim n).congr fun k => by rw [hit k])
      fun u hu n hn => partials_continuousAt ((c78_partials s h hd).1 u hu) hn
  · refine tendsto_nhds_unique (hlim n) (tendsto_const_nhds.congr fun k => ?_)
    rw [hit k]
    refine (iterates_untouched s.all (t 0) (fun k hk => ?_) k).symm
    have hlt : k < s.flat.length := by simpa using hk
    show n ∉ wr (s.flat.getD k [])
    rw [getD_lt hlt]
    exact hn _ (List.getElem_mem _)

/-- **C78**, total derivatives. Let the arrays `S p` solve the equations of all groups for `p` near `p₀`, and let them be
differentiable at `p₀`. Their derivatives solve OpenMDAO's linear system of total derivatives, assembled from the partials
of all components. So if this system, with zero derivatives of independent variables and inputs, has only the solution
zero, its solution is the derivative. -/
theorem c78_totals {P : Type} [NormedAddCommGroup P] [NormedSpace ℝ P] (s : System) (h : s.OkOn size)
    {S : P → Store (FlatArr size)} {p₀ : P} (hs : ∀ᶠ p in nhds p₀, s.Solved (arrOf (S p)))
    {d : (n : String) → P →L[ℝ] FlatArr size n} (hd : ∀ n, HasFDerivAt (fun p => S p n) (d n) p₀) :
    TotalSystem (· ∈ s.all) (s.comps size) (s.partials size) (S p₀) d d ∧
    ∀ d₀, (∀ n, s.Given n → d₀ n = d n) →
      (∀ e : (n : String) → P →L[ℝ] FlatArr size n,
        TotalSystem (· ∈ s.all) (s.comps size) (s.partials size) (S p₀) (fun _ => 0) e → ∀ n, e n = 0) →
      ∀ d', TotalSystem (· ∈ s.all) (s.comps size) (s.partials size) (S p₀) d₀ d' ↔ d' = d := by
  have hgiven : ∀ n, (∀ u, u ∈ s.all → n ∉ (s.comps size u).writes) → s.Given n := by
    intro n hn c hc hw
    obtain ⟨k, hk, rfl⟩ := List.getElem_of_mem hc
    refine hn k (by simpa using hk) ?_
    show n ∈ wr (s.flat.getD k [])
    rw [getD_lt hk]
    exact hw
  have hsys : TotalSystem (· ∈ s.all) (s.comps size) (s.partials size) (S p₀) d d := by
    refine ⟨fun _ _ => rfl, fun u hu n hn => ?_⟩
    have hex := (c78_partials s h (solved_defined s hs.self_of_nhds)).1 u hu n hn
    have hx : HasFDerivAt (fun p (i : Fin (s.comps size u).reads.length) => S p (s.comps size u).reads[i])
        (ContinuousLinearMap.pi fun i => d (s.comps size u).reads[i]) p₀ := hasFDerivAt_pi.2 fun i => hd _
    have hcomp := HasFDerivAt.comp p₀ hex hx
    have heq : (fun p => S p n) =ᶠ[nhds p₀]
        fun p => (s.comps size u).f (fun i => S p (s.comps size u).reads[i]) n := by
      filter_upwards [hs] with p hp
      exact (runAll_fixed_iff List.nodup_range (comps_own s h) (S p)).1
        ((stays_iff s h (S p) (solved_defined s hp)).2 hp) u hu n hn
    have := (hd n).unique (hcomp.congr_of_eventuallyEq heq)
    rw [this]
    ext x
    simp
  refine ⟨hsys, fun d₀ hd₀ huniq d' => ⟨fun h' => ?_, ?_⟩⟩
  · have hz := huniq (fun n => d' n - d n) ⟨fun n hn => ?_, fun u hu n hn => ?_⟩
    · funext n
      exact sub_eq_zero.1 (hz n)
    · show d' n - d n = 0
      rw [h'.1 n hn, hd₀ n (hgiven n hn), sub_self]
    · show d' n - d n = _
      rw [h'.2 u hu n hn, hsys.2 u hu n hn, ← Finset.sum_sub_distrib]
      refine Finset.sum_congr rfl fun i _ => ?_
      rw [ContinuousLinearMap.comp_sub]
  · rintro rfl
    exact ⟨fun n hn => (hd₀ n (hgiven n hn)).symm, hsys.2⟩

end

end OM

import Verif.Model.Collect
import Verif.Spec.Graph
import Verif.Lemmas.Group
import Verif.Lemmas.Runs
import Verif.Lemmas.Finite

/-! # The inputs of an implicit component (C53), the partials it declares (C62) -/

namespace OM
open Spec

/-- A step to a dependency whose name is not that of `root`. -/
def CollectEdge (w : World) (root : Ref) (u v : Ref) : Prop := v ∈ w.deps u ∧ w.name v ≠ w.name root

/-- A declared input that does not depend on anything. -/
def FreeInput (w : World) (x : Ref) : Prop := w.kind x = .input ∧ w.deps x = []

theorem collectInputs_mem (w : World) (root : Ref) (limit : Nat) : ∀ (u : Ref) (acc res : List Ref),
    collectInputs w root limit u acc = some res →
    ∀ x, x ∈ res ↔ x ∈ acc ∨ (FreeInput w x ∧ Relation.TransGen (CollectEdge w root) u x) := by
  induction limit with
  | zero => intro u acc res h; cases h
  | succ limit ih =>
    intro u acc res h
    simp only [collectInputs] at h
    have key : ∀ (l : List Ref) (acc res : List Ref), (∀ v ∈ l, v ∈ w.deps u) →
        l.foldlM (fun inputs dep =>
          if w.name dep ≠ w.name root then
            collectInputs w root limit dep
              (if w.kind dep = .input ∧ (w.deps dep).length = 0 then inputs ++ [dep] else inputs)
          else some inputs) acc = some res →
        ∀ x, x ∈ res ↔ x ∈ acc ∨ (FreeInput w x ∧ ∃ v ∈ l, w.name v ≠ w.name root ∧
          Relation.ReflTransGen (CollectEdge w root) v x) := by
      intro l
      induction l with
      | nil =>
        intro acc res _ h x
        cases h
        simp
      | cons v l ihl =>
        intro acc res hl h x
        rw [List.foldlM_cons] at h
        have hl' : ∀ v ∈ l, v ∈ w.deps u := fun v hv => hl v (List.mem_cons_of_mem _ hv)
        split at h
        · rename_i hn
          cases hc : collectInputs w root limit v
              (if w.kind v = .input ∧ (w.deps v).length = 0 then acc ++ [v] else acc) with
          | none => rw [hc] at h; cases h
          | some mid =>
            rw [hc] at h
            rw [ihl mid res hl' h x, ih _ _ _ hc x]
            have hacc : x ∈ (if w.kind v = .input ∧ (w.deps v).length = 0 then acc ++ [v] else acc) ↔
                x ∈ acc ∨ (FreeInput w x ∧ x = v) := by
              split
              · rename_i hi
                rw [List.mem_append, List.mem_singleton]
                refine or_congr_right ⟨fun e => ⟨?_, e⟩, fun e => e.2⟩
                rw [e]
                exact ⟨hi.1, List.length_eq_zero_iff.1 hi.2⟩
              · rename_i hi
                refine ⟨.inl, fun e => e.resolve_right ?_⟩
                rintro ⟨hf, rfl⟩
                exact hi ⟨hf.1, by rw [hf.2]; rfl⟩
            rw [hacc]
            constructor
            · rintro (((h | ⟨hf, rfl⟩) | ⟨hf, ht⟩) | ⟨hf, v', hv', h⟩)
              · exact .inl h
              · exact .inr ⟨hf, x, List.mem_cons_self, hn, .refl⟩
              · exact .inr ⟨hf, v, List.mem_cons_self, hn, ht.to_reflTransGen⟩
              · exact .inr ⟨hf, v', List.mem_cons_of_mem _ hv', h⟩
            · rintro (h | ⟨hf, v', hv', hn', hr⟩)
              · exact .inl (.inl (.inl h))
              · rcases List.mem_cons.1 hv' with rfl | hv'
                · rcases Relation.reflTransGen_iff_eq_or_transGen.1 hr with e | ht
                  · exact .inl (.inl (.inr ⟨hf, e⟩))
                  · exact .inl (.inr ⟨hf, ht⟩)
                · exact .inr ⟨hf, v', hv', hn', hr⟩
        · rename_i hn
          have h' := ihl acc res hl' h x
          rw [h']
          refine or_congr_right (and_congr_right fun _ => ?_)
          constructor
          · rintro ⟨v', hv', h⟩
            exact ⟨v', List.mem_cons_of_mem _ hv', h⟩
          · rintro ⟨v', hv', hn', hr⟩
            rcases List.mem_cons.1 hv' with rfl | hv'
            · exact absurd hn' hn
            · exact ⟨v', hv', hn', hr⟩
    intro x
    rw [key _ acc res (fun v hv => hv) h x]
    refine or_congr_right (and_congr_right fun _ => ?_)
    rw [Relation.TransGen.head'_iff]
    constructor
    · rintro ⟨v, hv, hn, hr⟩; exact ⟨v, ⟨hv, hn⟩, hr⟩
    · rintro ⟨v, ⟨hv, hn⟩, hr⟩; exact ⟨v, hv, hn, hr⟩

/-- **C53**, collection: for every graph in which no dependency of the residual has the residual's name, exactly the
free inputs that the residual depends on are collected. -/
theorem c53_collect {w : World} {root : Ref} {limit : Nat} {res : List Ref}
    (h : collectInputs w root limit root [] = some res)
    (hn : ∀ x, Needs w.deps root x → w.name x ≠ w.name root) (x : Ref) :
    x ∈ res ↔ FreeInput w x ∧ Needs w.deps root x := by
  rw [collectInputs_mem w root limit root [] res h x]
  simp only [List.not_mem_nil, false_or]
  refine and_congr_right fun hf => ⟨fun ht => ?_, fun ht => ?_⟩
  · exact Relation.TransGen.mono (fun a b hab => hab.1) _ _ ht
  · clear hf
    unfold Needs at ht hn
    induction ht with
    | single h => exact .single ⟨h, hn _ (.single h)⟩
    | tail h1 h2 ih => exact ih.tail ⟨h2, hn _ (h1.tail h2)⟩

/-- The recursion limit is not reached if all chains of dependencies are shorter. -/
theorem c53_terminates {w : World} {root : Ref} {limit : Nat} : ∀ {u : Ref} (acc : List Ref),
    ChainsLt w.deps u limit → ∃ res, collectInputs w root limit u acc = some res := by
  induction limit with
  | zero => intro u acc h; exact absurd (h [] (List.isChain_singleton _)) (by simp)
  | succ limit ih =>
    intro u acc h
    simp only [collectInputs]
    have hsub : ∀ v ∈ w.deps u, ChainsLt w.deps v limit := by
      intro v hv l hl
      have := h (v :: l) (List.isChain_cons_cons.2 ⟨hv, hl⟩)
      simpa using this
    generalize w.deps u = l at hsub
    induction l generalizing acc with
    | nil => exact ⟨acc, rfl⟩
    | cons v l ihl =>
      rw [List.foldlM_cons]
      have hl := fun acc => ihl acc fun v' hv' => hsub v' (List.mem_cons_of_mem _ hv')
      split
      · obtain ⟨mid, hmid⟩ := ih (u := v) (if w.kind v = .input ∧ (w.deps v).length = 0 then acc ++ [v] else acc)
          (hsub v List.mem_cons_self)
        rw [hmid]
        exact hl mid
      · exact hl acc

/-! ## The component -/

theorem bind_okay {α β : Type} (a : α) (f : α → Except PyErr β) : (Except.ok a >>= f) = f a := rfl

/-- The names of the inputs added for one residual. -/
def newIns (w : World) (out : String) (xs : List Ref) : List String := (xs.map w.name).filter (· ≠ out)

theorem addInputs_iff (w : World) (out : String) (xs : List Ref) : ∀ (c : ImplInterface),
    out ∈ c.outs → (c.outs ++ c.ins).Nodup →
    ((c.outs ++ (c.ins ++ newIns w out xs)).Nodup → xs.foldlM (fun c x => c.addInput out (w.name x)) c =
      Except.ok ⟨c.outs, c.ins ++ newIns w out xs, c.wrt ++ (newIns w out xs).map fun n => (out, n)⟩) ∧
    (¬ (c.outs ++ (c.ins ++ newIns w out xs)).Nodup →
      xs.foldlM (fun c x => c.addInput out (w.name x)) c = .error .valueError) := by
  induction xs with
  | nil =>
    intro c _ hc
    simp only [newIns, List.map_nil, List.filter_nil, List.append_nil]
    exact ⟨fun _ => rfl, fun h => absurd hc h⟩
  | cons x xs ih =>
    intro c ho hc
    rw [List.foldlM_cons]
    by_cases he : w.name x = out
    · have hadd : c.addInput out (w.name x) = .ok c := if_pos he
      have hnew : newIns w out (x :: xs) = newIns w out xs := by
        simp [newIns, he]
      rw [hadd, hnew]
      exact ih c ho hc
    · have hnew : newIns w out (x :: xs) = w.name x :: newIns w out xs := by
        simp [newIns, he]
      rw [hnew]
      by_cases hd : w.name x ∈ c.outs ++ c.ins
      · have hadd : c.addInput out (w.name x) = .error .valueError := (if_neg he).trans (if_pos hd)
        rw [hadd]
        refine ⟨fun h => ?_, fun _ => rfl⟩
        rw [← List.append_assoc] at h
        exact absurd rfl ((List.nodup_append.1 h).2.2 _ hd _ List.mem_cons_self)
      · have hadd : c.addInput out (w.name x) =
            .ok { c with ins := c.ins ++ [w.name x], wrt := c.wrt ++ [(out, w.name x)] } :=
          (if_neg he).trans (if_neg hd)
        rw [hadd, bind_okay]
        have hc' : (c.outs ++ (c.ins ++ [w.name x])).Nodup := by
          rw [← List.append_assoc]
          refine List.nodup_append.2 ⟨hc, List.nodup_singleton _, ?_⟩
          rintro a ha b hb rfl
          rw [List.mem_singleton] at hb
          exact hd (hb ▸ ha)
        have := ih { c with ins := c.ins ++ [w.name x], wrt := c.wrt ++ [(out, w.name x)] } ho hc'
        simpa [List.append_assoc] using this

/-- The names of the inputs added for all residuals; `collected` are the objects collected for each. -/
def allIns (w : World) (collected : List (List Ref)) (residuals : List (Ref × String)) : List String :=
  (collected.zip residuals).flatMap fun p => newIns w p.2.2 p.1

/-- The partials declared for all residuals. -/
def allWrt (w : World) (collected : List (List Ref)) (residuals : List (Ref × String)) : List (String × String) :=
  (collected.zip residuals).flatMap fun p => ((newIns w p.2.2 p.1).map fun n => (p.2.2, n)) ++ [(p.2.2, p.2.2)]

theorem nodup_split {a b c d : List String} {x : String} (h : (a ++ x :: b ++ (c ++ d)).Nodup) :
    (a ++ [x] ++ c).Nodup ∧ x ∉ a ++ c := by
  have hsub : (a ++ [x] ++ c).Sublist (a ++ x :: b ++ (c ++ d)) := by
    refine List.Sublist.append ?_ (List.sublist_append_left _ _)
    exact List.Sublist.append_left (List.Sublist.cons_cons _ (List.nil_sublist _)) _
  have hn := hsub.nodup h
  refine ⟨hn, fun hm => ?_⟩
  rw [List.append_assoc] at hn
  obtain ⟨_, h2, h3⟩ := List.nodup_append.1 hn
  rcases List.mem_append.1 hm with hm | hm
  · exact h3 _ hm _ List.mem_cons_self rfl
  · exact (List.nodup_cons.1 h2).1 hm

theorem implInterface_iff (w : World) (o : SetOrder Ref) (limit : Nat) (residuals : List (Ref × String)) :
    ∀ (collected : List (List Ref)) (c : ImplInterface),
    List.Forall₂ (fun xs r => ∃ l, collectInputs w r.1 limit r.1 [] = some l ∧ xs = o.list l) collected residuals →
    (c.outs ++ c.ins).Nodup →
    ((c.outs ++ residuals.map Prod.snd ++ (c.ins ++ allIns w collected residuals)).Nodup →
      residuals.foldlM (ImplInterface.addResidual w o limit) c =
        Except.ok ⟨c.outs ++ residuals.map Prod.snd, c.ins ++ allIns w collected residuals,
          c.wrt ++ allWrt w collected residuals⟩) ∧
    (¬ (c.outs ++ residuals.map Prod.snd ++ (c.ins ++ allIns w collected residuals)).Nodup →
      residuals.foldlM (ImplInterface.addResidual w o limit) c = .error .valueError) := by
  induction residuals with
  | nil =>
    intro collected c hf hc
    cases hf
    simp only [List.map_nil, List.append_nil, allIns, allWrt, List.zip_nil_right, List.flatMap_nil]
    exact ⟨fun _ => rfl, fun h => absurd hc h⟩
  | cons r rs ih =>
    intro collected c hf hc
    obtain ⟨xs, collected, ⟨l, hl, rfl⟩, hf', rfl⟩ := List.forall₂_cons_right_iff.1 hf
    rw [List.foldlM_cons]
    have hins : allIns w (o.list l :: collected) (r :: rs) = newIns w r.2 (o.list l) ++ allIns w collected rs := rfl
    have hwrt : allWrt w (o.list l :: collected) (r :: rs) = (((newIns w r.2 (o.list l)).map fun n => (r.2, n)) ++
        [(r.2, r.2)]) ++ allWrt w collected rs := rfl
    rw [hins, hwrt, List.map_cons]
    have hstep : ImplInterface.addResidual w o limit c r = if r.2 ∈ c.outs ++ c.ins then .error .valueError
        else match (o.list l).foldlM (fun c x => c.addInput r.2 (w.name x)) { c with outs := c.outs ++ [r.2] } with
          | .error e => .error e
          | .ok c => .ok { c with wrt := c.wrt ++ [(r.2, r.2)] } := by
      unfold ImplInterface.addResidual
      rw [hl]
      rfl
    rw [hstep]
    by_cases hm : r.2 ∈ c.outs ++ c.ins
    · rw [if_pos hm]
      exact ⟨fun h => absurd hm (nodup_split h).2, fun _ => rfl⟩
    · rw [if_neg hm]
      have hc1 : ((c.outs ++ [r.2]) ++ c.ins).Nodup := by
        rw [List.append_assoc]
        obtain ⟨n1, n2, n3⟩ := List.nodup_append.1 hc
        refine List.nodup_append.2 ⟨n1, List.nodup_cons.2 ⟨fun h => hm (List.mem_append.2 (.inr h)), n2⟩, ?_⟩
        rintro a ha b hb rfl
        rcases List.mem_cons.1 hb with rfl | hb
        · exact hm (List.mem_append.2 (.inl ha))
        · exact n3 _ ha _ hb rfl
      obtain ⟨hyes, hno⟩ := addInputs_iff w r.2 (o.list l) { c with outs := c.outs ++ [r.2] } (by simp) hc1
      simp only at hyes hno
      by_cases hn : (c.outs ++ [r.2] ++ (c.ins ++ newIns w r.2 (o.list l))).Nodup
      · rw [hyes hn]
        simp only [bind_okay]
        have := ih collected ⟨c.outs ++ [r.2], c.ins ++ newIns w r.2 (o.list l),
          c.wrt ++ ((newIns w r.2 (o.list l)).map fun n => (r.2, n)) ++ [(r.2, r.2)]⟩ hf' hn
        simpa [List.append_assoc] using this
      · rw [hno hn]
        refine ⟨fun h => ?_, fun _ => rfl⟩
        rw [← List.append_assoc] at h
        rw [← List.append_assoc] at h
        exact absurd (nodup_split (b := rs.map Prod.snd) (c := c.ins ++ newIns w r.2 (o.list l))
          (d := allIns w collected rs) (by simpa [List.append_assoc] using h)).1 hn

/-- The free inputs that a residual depends on, by name, other than the output of the residual. -/
def ResInput (w : World) (r : Ref × String) (n : String) : Prop :=
  n ≠ r.2 ∧ ∃ x, FreeInput w x ∧ Needs w.deps r.1 x ∧ w.name x = n

variable {w : World} {o : SetOrder Ref} {limit : Nat} {residuals : List (Ref × String)}

theorem collected_exists (hlim : ∀ r ∈ residuals, ChainsLt w.deps r.1 limit) : ∃ collected : List (List Ref),
    List.Forall₂ (fun xs r => ∃ l, collectInputs w r.1 limit r.1 [] = some l ∧ xs = o.list l) collected residuals := by
  induction residuals with
  | nil => exact ⟨[], .nil⟩
  | cons r rs ih =>
    obtain ⟨collected, h⟩ := ih fun r' hr' => hlim r' (List.mem_cons_of_mem _ hr')
    obtain ⟨l, hl⟩ := c53_terminates (w := w) (root := r.1) (u := r.1) [] (hlim r List.mem_cons_self)
    exact ⟨o.list l :: collected, .cons ⟨l, hl, rfl⟩ h⟩

theorem mem_newIns {r : Ref × String} {l : List Ref} (hl : collectInputs w r.1 limit r.1 [] = some l)
    (hn : ∀ x, Needs w.deps r.1 x → w.name x ≠ w.name r.1) (n : String) :
    n ∈ newIns w r.2 (o.list l) ↔ ResInput w r n := by
  unfold newIns ResInput
  simp only [List.mem_filter, List.mem_map, o.mem_iff, c53_collect hl hn, ne_eq, decide_not,
    Bool.not_eq_eq_eq_not, Bool.not_true, decide_eq_false_iff_not]
  constructor
  · rintro ⟨⟨x, ⟨h1, h2⟩, h3⟩, h4⟩; exact ⟨h4, x, h1, h2, h3⟩
  · rintro ⟨h4, x, h1, h2, h3⟩; exact ⟨⟨x, ⟨h1, h2⟩, h3⟩, h4⟩

theorem mem_all {collected : List (List Ref)} {rs : List (Ref × String)}
    (hf : List.Forall₂ (fun xs r => ∃ l, collectInputs w r.1 limit r.1 [] = some l ∧ xs = o.list l) collected rs) :
    (∀ r ∈ rs, ∀ x, Needs w.deps r.1 x → w.name x ≠ w.name r.1) →
    (∀ n, n ∈ allIns w collected rs ↔ ∃ r ∈ rs, ResInput w r n) ∧
    (∀ a b, (a, b) ∈ allWrt w collected rs ↔ ∃ r ∈ rs, a = r.2 ∧ (b = r.2 ∨ ResInput w r b)) := by
  induction hf with
  | nil => intro _; simp [allIns, allWrt]
  | cons h1 h2 ih =>
    rename_i xs r collected rs
    intro hn
    obtain ⟨l, hl, rfl⟩ := h1
    obtain ⟨i1, i2⟩ := ih fun r' hr' => hn r' (List.mem_cons_of_mem _ hr')
    have hnew := mem_newIns (o := o) hl (hn r List.mem_cons_self)
    constructor
    · intro n
      show n ∈ newIns w r.2 (o.list l) ++ allIns w collected rs ↔ _
      rw [List.mem_append, hnew, i1]
      simp
    · intro a b
      show (a, b) ∈ (((newIns w r.2 (o.list l)).map fun n => (r.2, n)) ++ [(r.2, r.2)]) ++ allWrt w collected rs ↔ _
      rw [List.mem_append, i2, List.mem_append, List.mem_map, List.mem_singleton]
      simp only [hnew, Prod.mk.injEq, List.mem_cons, exists_eq_or_imp]
      refine or_congr ?_ Iff.rfl
      constructor
      · rintro (⟨n, h1, rfl, rfl⟩ | ⟨rfl, rfl⟩)
        · exact ⟨rfl, .inr h1⟩
        · exact ⟨rfl, .inl rfl⟩
      · rintro ⟨rfl, rfl | h⟩
        · exact .inr ⟨rfl, rfl⟩
        · exact .inl ⟨b, h, rfl, rfl⟩

theorem allIns_shared {pre mid post : List (Ref × String)} {r s : Ref × String} {n : String} (hr : ResInput w r n)
    (hs : ResInput w s n) : ∀ {collected : List (List Ref)},
    List.Forall₂ (fun xs r => ∃ l, collectInputs w r.1 limit r.1 [] = some l ∧ xs = o.list l) collected
      (pre ++ r :: (mid ++ s :: post)) →
    (∀ q ∈ pre ++ r :: (mid ++ s :: post), ∀ x, Needs w.deps q.1 x → w.name x ≠ w.name q.1) →
    ¬ (allIns w collected (pre ++ r :: (mid ++ s :: post))).Nodup := by
  induction pre with
  | nil =>
    intro collected hf hn hnd
    obtain ⟨xs, collected, ⟨l, hl, rfl⟩, hf', rfl⟩ := List.forall₂_cons_right_iff.1 hf
    have hnd' : (newIns w r.2 (o.list l) ++ allIns w collected (mid ++ s :: post)).Nodup := hnd
    refine (List.nodup_append.1 hnd').2.2 n ?_ n ?_ rfl
    · exact (mem_newIns hl (hn r List.mem_cons_self) n).2 hr
    · exact ((mem_all hf' fun q hq => hn q (List.mem_cons_of_mem _ hq)).1 n).2 ⟨s, by simp, hs⟩
  | cons p pre ih =>
    intro collected hf hn hnd
    obtain ⟨xs, collected, _, hf', rfl⟩ := List.forall₂_cons_right_iff.1 hf
    have hnd' : (newIns w p.2 xs ++ allIns w collected (pre ++ r :: (mid ++ s :: post))).Nodup := hnd
    exact ih hf' (fun q hq => hn q (List.mem_cons_of_mem _ hq)) (List.nodup_append.1 hnd').2.1

/-- **C53** and **C62**: a component that can be set up has one output for each residual, its inputs are exactly the
free inputs that some residual depends on (other than the output of that residual), and it declares the partials of an
output with respect to exactly those of its own residual and itself. -/
theorem c53_interface_partial {c : ImplInterface} (hlim : ∀ r ∈ residuals, ChainsLt w.deps r.1 limit)
    (hn : ∀ r ∈ residuals, ∀ x, Needs w.deps r.1 x → w.name x ≠ w.name r.1)
    (h : implInterface w o limit residuals = .ok c) :
    c.outs = residuals.map Prod.snd ∧ (∀ n, n ∈ c.ins ↔ ∃ r ∈ residuals, ResInput w r n) ∧
    (∀ a b, (a, b) ∈ c.wrt ↔ ∃ r ∈ residuals, a = r.2 ∧ (b = r.2 ∨ ResInput w r b)) ∧
    (c.outs ++ c.ins).Nodup := by
  obtain ⟨collected, hf⟩ := collected_exists (o := o) hlim
  obtain ⟨hyes, hno⟩ := implInterface_iff w o limit residuals collected ⟨[], [], []⟩ hf List.nodup_nil
  unfold implInterface at h
  by_cases hnd : (residuals.map Prod.snd ++ allIns w collected residuals).Nodup
  · rw [hyes (by simpa using hnd)] at h
    cases h
    obtain ⟨m1, m2⟩ := mem_all hf hn
    exact ⟨by simp, by simpa using m1, by simpa using m2, by simpa using hnd⟩
  · rw [hno (by simpa using hnd)] at h
    cases h

/-- **C53**, one residual: the component can be set up if the free inputs have different names. -/
theorem c53_single {r : Ref × String} (hlim : ChainsLt w.deps r.1 limit)
    (hn : ∀ x, Needs w.deps r.1 x → w.name x ≠ w.name r.1)
    (hnames : ∀ x y, FreeInput w x → FreeInput w y → Needs w.deps r.1 x → Needs w.deps r.1 y →
      w.name x = w.name y → x = y) : ∃ c, implInterface w o limit [r] = .ok c := by
  obtain ⟨l, hl⟩ := c53_terminates (w := w) (root := r.1) (u := r.1) [] hlim
  obtain ⟨hyes, _⟩ := implInterface_iff w o limit [r] [o.list l] ⟨[], [], []⟩ (.cons ⟨l, hl, rfl⟩ .nil) List.nodup_nil
  refine ⟨_, hyes ?_⟩
  have hmem : ∀ x ∈ o.list l, FreeInput w x ∧ Needs w.deps r.1 x := fun x hx =>
    (c53_collect hl hn x).1 ((o.mem_iff _ _).1 hx)
  have hnd : ((o.list l).map w.name).Nodup :=
    (List.nodup_map_iff_inj_on (o.nodup l)).2 fun x hx y hy e =>
      hnames x y (hmem x hx).1 (hmem y hy).1 (hmem x hx).2 (hmem y hy).2 e
  simp only [allIns, List.zip_cons_cons, List.zip_nil_right, List.flatMap_cons, List.flatMap_nil, List.append_nil,
    List.map_cons, List.map_nil, List.nil_append, List.singleton_append]
  refine List.nodup_cons.2 ⟨?_, hnd.filter _⟩
  simp [newIns]

/-- The claim is false for two residuals that depend on one free input: the component cannot be set up. -/
theorem c53_shared {pre mid post : List (Ref × String)} {r s : Ref × String}
    (hres : residuals = pre ++ r :: (mid ++ s :: post)) (hlim : ∀ r ∈ residuals, ChainsLt w.deps r.1 limit)
    (hn : ∀ r ∈ residuals, ∀ x, Needs w.deps r.1 x → w.name x ≠ w.name r.1) {n : String} (hr : ResInput w r n)
    (hs : ResInput w s n) : implInterface w o limit residuals = .error .valueError := by
  obtain ⟨collected, hf⟩ := collected_exists (o := o) hlim
  obtain ⟨_, hno⟩ := implInterface_iff w o limit residuals collected ⟨[], [], []⟩ hf List.nodup_nil
  refine hno fun hnd => ?_
  simp only [List.nil_append] at hnd
  subst hres
  exact allIns_shared hr hs hf hn (List.nodup_append.1 hnd).2.1

/-- Nor can it be set up if a residual depends on a free input with the name of the output of another. -/
theorem c53_output_as_input {r s : Ref × String} (hrm : r ∈ residuals) (hsm : s ∈ residuals)
    (hlim : ∀ r ∈ residuals, ChainsLt w.deps r.1 limit)
    (hn : ∀ r ∈ residuals, ∀ x, Needs w.deps r.1 x → w.name x ≠ w.name r.1) (hr : ResInput w r s.2) :
    implInterface w o limit residuals = .error .valueError := by
  obtain ⟨collected, hf⟩ := collected_exists (o := o) hlim
  obtain ⟨_, hno⟩ := implInterface_iff w o limit residuals collected ⟨[], [], []⟩ hf List.nodup_nil
  refine hno fun hnd => ?_
  simp only [List.nil_append] at hnd
  exact (List.nodup_append.1 hnd).2.2 s.2 (List.mem_map.2 ⟨s, hsm, rfl⟩) s.2
    (((mem_all hf hn).1 s.2).2 ⟨r, hrm, hr⟩) rfl

/-- Dependencies on a subsystem stay, whatever is called later. -/
theorem run_keeps_subsystem {genv : GEnv} {u s : Ref} (ops : List Op) : ∀ {w : World}, WorldOk w →
    ValidFrom genv w ops → s < w.next → w.kind s = .subsystem → s ∈ w.deps u → s ∈ (run genv w ops).deps u := by
  induction ops with
  | nil => intro w _ _ _ _ h; exact h
  | cons op ops ih =>
    intro w ok hv hlt hk h
    have hkeep := step_keeps (env := genv) ok hv.1
    refine ih (step_ok ok hv.1) hv.2 (lt_of_lt_of_le hlt hkeep.1) (by rw [hkeep.2.1 s hlt, hk]) ?_
    by_cases hr : op.Rewires s
    · cases op with
      | define out e =>
        obtain rfl : out = s := hr
        unfold step
        simp only
        rw [if_pos (by rw [hk]; decide)]
        exact h
      | defineResidual out e =>
        obtain rfl : out = s := hr
        unfold step
        simp only
        rw [if_pos (by rw [hk]; decide)]
        exact h
      | _ => exact hr.elim
    · exact hkeep.2.2.1 u s h hr

/-- The claim is false also for inputs declared after a subsystem was added: whether or not that subsystem computes
them, and whatever is called later, they depend on it and are not free, so they do not become inputs of the
component. -/
theorem c53_after_subsystem {genv : GEnv} {a b : List Op} {name : String}
    (hv : ValidFrom genv (World.init genv) (a ++ .declareInput name :: b)) {s : Ref}
    (hs : (run genv (World.init genv) a).recent = some s) :
    (run genv (World.init genv) (a ++ .declareInput name :: b)).kind (run genv (World.init genv) a).next = .input ∧
    s ∈ (run genv (World.init genv) (a ++ .declareInput name :: b)).deps (run genv (World.init genv) a).next ∧
    ¬ FreeInput (run genv (World.init genv) (a ++ .declareInput name :: b)) (run genv (World.init genv) a).next := by
  obtain ⟨hva, hvd, hvb⟩ := (validFrom_append genv _ _ _).1 hv
  have ok := run_ok a (worldOk_init genv) hva
  obtain ⟨hs0, hslt, hsk⟩ := ok.recent s hs
  have hd : s ∈ (step genv (run genv (World.init genv) a) (.declareInput name)).1.deps (run genv (World.init genv) a).next := by
    unfold step
    simp only [hs]
    exact (mem_addDep genv.o _ _ _ _ _).2 (.inr ⟨rfl, rfl⟩)
  have hkeep := step_keeps (env := genv) ok hvd
  have hk : (step genv (run genv (World.init genv) a) (.declareInput name)).1.kind (run genv (World.init genv) a).next = .input := by
    unfold step
    simp only [hs]
    simp [World.alloc, World.addDep]
  have hlt : (run genv (World.init genv) a).next < (step genv (run genv (World.init genv) a) (.declareInput name)).1.next := by
    unfold step
    simp only [hs]
    exact Nat.lt_succ_self _
  have hfin : run genv (World.init genv) (a ++ .declareInput name :: b) =
      run genv (step genv (run genv (World.init genv) a) (.declareInput name)).1 b := by
    rw [run_append, run_cons]
  have hd' := run_keeps_subsystem b (step_ok ok hvd) hvb (lt_of_lt_of_le hslt hkeep.1)
    (by rw [hkeep.2.1 s hslt]; exact hsk) hd
  rw [hfin]
  refine ⟨?_, hd', fun hf => ?_⟩
  · rw [run_kind b (step_ok ok hvd) hvb _ hlt, hk]
  · rw [hf.2] at hd'
    cases hd'

example (genv : GEnv) : ValidFrom genv (World.init genv) ([.addSubsystem "s"] ++ .declareInput "x" :: [.createOutput "y"]) ∧
    (run genv (World.init genv) [.addSubsystem "s"]).recent = some 1 := ⟨by simp [ValidFrom, Op.Valid], rfl⟩

/-- **C62** is false if a residual depends on another implicit output: no partial is declared with respect to it
(unless an input of that name is there too). -/
theorem c62_coupled {c : ImplInterface} (hlim : ∀ r ∈ residuals, ChainsLt w.deps r.1 limit)
    (hn : ∀ r ∈ residuals, ∀ x, Needs w.deps r.1 x → w.name x ≠ w.name r.1)
    (h : implInterface w o limit residuals = .ok c) {r : Ref × String} (hr : r ∈ residuals)
    (hout : ∀ q ∈ residuals, q.2 = r.2 → q = r) {y : Ref} (_hy : w.kind y = .implicitOut)
    (_hyr : Needs w.deps r.1 y) (hne : w.name y ≠ r.2)
    (hname : ∀ x, FreeInput w x → Needs w.deps r.1 x → w.name x ≠ w.name y) : (r.2, w.name y) ∉ c.wrt := by
  intro hm
  obtain ⟨q, hq, e, h'⟩ := ((c53_interface_partial hlim hn h).2.2.1 _ _).1 hm
  obtain rfl := hout q hq e.symm
  rcases h' with h' | ⟨_, x, hx, hxr, hxn⟩
  · exact hne h'
  · exact hname x hx hxr hxn

/-- Two coupled residuals: `r` (object 3) uses the input `x` (4) in the place of its own output `x` (1), and the
implicit output `y` (2); `q` (object 5) uses the input `y` (6) in the place of its own output. -/
def coupledWorld : World :=
  { next := 7, kind := fun u => if u = 0 then .root else if u = 1 ∨ u = 2 then .implicitOut
      else if u = 4 ∨ u = 6 then .input else .expr,
    deps := ofAdj [[3, 5], [], [], [4, 2], [], [6], []],
    name := fun u => if u = 1 ∨ u = 4 then "x" else if u = 2 ∨ u = 6 then "y" else if u = 3 then "r" else if u = 5 then "q"
      else "root",
    recent := none, defined := fun _ => true, indexed := fun _ => false, decomp := fun _ => none }

theorem coupled_needs3 {x : Ref} (h : Needs coupledWorld.deps 3 x) : x = 4 ∨ x = 2 := by
  rcases Relation.TransGen.head'_iff.1 h with ⟨v, hv, hr⟩
  have hv' : v = 4 ∨ v = 2 := by simpa [Edge, coupledWorld, ofAdj] using hv
  have hleaf : coupledWorld.deps v = [] := by rcases hv' with rfl | rfl <;> rfl
  rcases Relation.ReflTransGen.cases_head hr with rfl | ⟨u, hu, _⟩
  · exact hv'
  · rw [Edge, hleaf] at hu
    cases hu

theorem coupled_needs5 {x : Ref} (h : Needs coupledWorld.deps 5 x) : x = 6 := by
  rcases Relation.TransGen.head'_iff.1 h with ⟨v, hv, hr⟩
  have hv' : v = 6 := by simpa [Edge, coupledWorld, ofAdj] using hv
  subst hv'
  rcases Relation.ReflTransGen.cases_head hr with rfl | ⟨u, hu, _⟩
  · rfl
  · have : u ∈ ([] : List Nat) := hu
    cases this

/-- The hypotheses of `c53_interface_partial` and `c62_coupled` are met, for every set order: the component is set up
without the partial of `x` with respect to `y`. -/
example (o : SetOrder Ref) :
    (∀ r ∈ [(3, "x"), (5, "y")], ChainsLt coupledWorld.deps r.1 5) ∧
    (∀ r ∈ [(3, "x"), (5, "y")], ∀ x, Needs coupledWorld.deps r.1 x → coupledWorld.name x ≠ coupledWorld.name r.1) ∧
    (∃ c, implInterface coupledWorld o 5 [(3, "x"), (5, "y")] = .ok c) ∧ Needs coupledWorld.deps 3 2 ∧
    (∀ x, FreeInput coupledWorld x → Needs coupledWorld.deps 3 x → coupledWorld.name x ≠ coupledWorld.name 2) := by
  have hlim : ∀ r ∈ [(3, "x"), (5, "y")], ChainsLt coupledWorld.deps r.1 5 := by
    intro r hr
    simp only [List.mem_cons, List.not_mem_nil, or_false] at hr
    rcases hr with rfl | rfl
    · rw [chainsLt_succ]
      intro v hv
      have hv' : v = 4 ∨ v = 2 := by simpa [coupledWorld, ofAdj] using hv
      rcases hv' with rfl | rfl <;>
      · rw [chainsLt_succ]
        intro u hu
        have : u ∈ ([] : List Nat) := hu
        cases this
    · rw [chainsLt_succ]
      intro v hv
      have hv' : v = 6 := by simpa [coupledWorld, ofAdj] using hv
      subst hv'
      rw [chainsLt_succ]
      intro u hu
      have : u ∈ ([] : List Nat) := hu
      cases this
  have hn : ∀ r ∈ [(3, "x"), (5, "y")], ∀ x, Needs coupledWorld.deps r.1 x →
      coupledWorld.name x ≠ coupledWorld.name r.1 := by
    intro r hr x hx
    simp only [List.mem_cons, List.not_mem_nil, or_false] at hr
    rcases hr with rfl | rfl
    · rcases coupled_needs3 hx with rfl | rfl <;> decide
    · obtain rfl := coupled_needs5 hx
      decide
  refine ⟨hlim, hn, ?_, .single (show (2 : Nat) ∈ coupledWorld.deps 3 by decide), ?_⟩
  · obtain ⟨collected, hf⟩ := collected_exists (o := o) hlim
    obtain ⟨hyes, _⟩ := implInterface_iff coupledWorld o 5 _ collected ⟨[], [], []⟩ hf List.nodup_nil
    refine ⟨_, hyes ?_⟩
    have hempty : allIns coupledWorld collected [(3, "x"), (5, "y")] = [] := by
      rw [List.eq_nil_iff_forall_not_mem]
      intro n hm
      obtain ⟨r, hr, hne, x, hx, hnx, rfl⟩ := ((mem_all hf hn).1 n).1 hm
      simp only [List.mem_cons, List.not_mem_nil, or_false] at hr
      rcases hr with rfl | rfl
      · rcases coupled_needs3 hnx with rfl | rfl
        · exact hne (by decide)
        · exact absurd hx.1 (by decide)
      · obtain rfl := coupled_needs5 hnx
        exact hne (by decide)
    rw [hempty]
    decide
  · intro x hx hnx
    rcases coupled_needs3 hnx with rfl | rfl
    · decide
    · exact absurd hx.1 (by decide)

/-! ## Long chains -/

theorem collectInputs_none {w : World} {root : Ref} {limit : Nat} {u : Ref} {acc : List Ref}
    (hn : ∀ x, Needs w.deps u x → w.name x ≠ w.name root) (hc : ¬ ChainsLt w.deps u limit) :
    collectInputs w root limit u acc = none := by
  induction limit generalizing u acc with
  | zero => rfl
  | succ n ih =>
    rw [chainsLt_succ] at hc
    push Not at hc
    obtain ⟨v, hv, hcv⟩ := hc
    rw [collectInputs]
    suffices ∀ (ds : List Ref) (acc : List Ref), v ∈ ds →
        ds.foldlM (fun inputs dep =>
          if w.name dep ≠ w.name root then
            collectInputs w root n dep (if w.kind dep = .input ∧ (w.deps dep).length = 0 then inputs ++ [dep] else inputs)
          else some inputs) acc = none from this _ acc hv
    intro ds
    induction ds with
    | nil => intro _ h; cases h
    | cons d ds ihds =>
      intro acc hvd
      rw [List.foldlM_cons]
      rcases List.mem_cons.1 hvd with rfl | hvd
      · rw [if_pos (hn v (.single hv)), ih (fun x hx => hn x (.head hv hx)) hcv]
        rfl
      · generalize (if w.name d ≠ w.name root then _ else _ : Option (List Ref)) = r
        cases r with
        | none => rfl
        | some acc' => exact ihds acc' hvd

/-- Chains that are too long for Python's recursion limit, cycles among them, end in RecursionError. -/
theorem c53_deep {w : World} {o : SetOrder Ref} {limit : Nat} {r : Ref × String} {rs : List (Ref × String)}
    (hn : ∀ x, Needs w.deps r.1 x → w.name x ≠ w.name r.1) (hc : ¬ ChainsLt w.deps r.1 limit) :
    implInterface w o limit (r :: rs) = .error .recursionError := by
  unfold implInterface
  rw [List.foldlM_cons, ImplInterface.addResidual, collectInputs_none hn hc]
  rfl

example {o : SetOrder Ref} : ¬ ChainsLt coupledWorld.deps 3 1 ∧ implInterface coupledWorld o 1 [(3, "x")] = .error .recursionError := by
  have h : ¬ ChainsLt coupledWorld.deps 3 1 := fun h =>
    absurd (h [2] (List.isChain_pair.2 (show (2 : Nat) ∈ coupledWorld.deps 3 by decide))) (by decide)
  refine ⟨h, c53_deep (fun x hx => ?_) h⟩
  rcases coupled_needs3 hx with rfl | rfl <;> decide

end OM

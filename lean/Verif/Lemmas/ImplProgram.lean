import Verif.Model.ImplProgram
import Verif.Lemmas.Layout
import Verif.Props.Residual

/-!
# The group of an implicit component and the program with inputs for the implicit outputs

Both groups have the same objects, in the same order; what differs is that implicit outputs are inputs in the second one,
and which leaf of a name an expression depends on.
-/

namespace OM
open Spec

/-- Objects without dependencies of their own that stand for values from outside. -/
def Kind.isLeaf : Kind → Prop
  | .input | .implicitOut => True
  | _ => False

/-- The state `wi` of the group of an implicit component and the state `wt` of the group in which the implicit outputs
are inputs. `P` holds of the objects that stand for implicit outputs: the implicit outputs and the objects that
`define_residual` puts in their place. In the first group they do not depend on the most recent subsystem, as inputs
do. -/
structure Sim (P : Ref → Prop) (wi wt : World) : Prop where
  next : wt.next = wi.next
  name : wt.name = wi.name
  indexed : wt.indexed = wi.indexed
  decomp : wt.decomp = wi.decomp
  recent : wt.recent = wi.recent
  kind : ∀ u, wt.kind u = if wi.kind u = .implicitOut then .input else wi.kind u
  fresh : ∀ u, wi.next ≤ u → wt.defined u = wi.defined u
  defined : ∀ u, wi.kind u = .explicitOut → wt.defined u = wi.defined u
  implicit : ∀ u, wi.kind u = .implicitOut → P u
  leaf : ∀ u, P u → (wi.kind u).isLeaf ∧ u < wi.next
  out : ∀ u, P u → ∃ o, wi.kind o = .implicitOut ∧ wi.name o = wi.name u
  bare : ∀ u, P u → wi.deps u = []
  root : ∀ u, P u → u ∉ wi.deps 0 ∧ u ∉ wt.deps 0
  deps : ∀ u v, ¬ P u → ¬ P v → (v ∈ wt.deps u ↔ v ∈ wi.deps u)
  reads : ∀ u v, u ≠ 0 → ¬ P u → v ∈ wt.deps u → v ∈ wi.deps u ∨ (wi.kind v = .implicitOut ∧ wi.defined v = true)
  leaves : ∀ u x, x ∈ wi.deps u → P x → ∃ y ∈ wt.deps u, P y ∧ wi.name y = wi.name x

theorem sim_init (genv : GEnv) : Sim (fun _ => False) (World.init genv) (World.init genv) := by
  refine ⟨rfl, rfl, rfl, rfl, rfl, fun u => ?_, fun _ _ => rfl, fun _ _ => rfl, fun u h => ?_, fun _ h => h.elim,
    fun _ h => h.elim, fun _ h => h.elim, fun _ h => h.elim,
    fun _ _ _ _ => Iff.rfl, fun _ _ _ _ h => Or.inl h, fun _ _ _ h => h.elim⟩
  · show World.kind _ u = _
    simp only [World.init]
    split <;> simp
  · simp only [World.init] at h
    split at h <;> cases h

section
variable {genv : GEnv} {P : Ref → Prop} {wi wt : World}

theorem Sim.kind_same (h : Sim P wi wt) {u : Ref} (hu : wi.kind u ≠ .implicitOut) : wt.kind u = wi.kind u := by
  rw [h.kind, if_neg hu]

theorem Sim.kind_eq (h : Sim P wi wt) {u : Ref} {k : Kind} (hk : k ≠ .input) (hk' : k ≠ .implicitOut) :
    wt.kind u = k ↔ wi.kind u = k := by
  rw [h.kind]
  split
  · rename_i hi
    rw [hi]
    exact ⟨fun e => absurd e.symm hk, fun e => absurd e.symm hk'⟩
  · exact Iff.rfl

theorem Sim.not (h : Sim P wi wt) {u : Ref} (hu : ¬ (wi.kind u).isLeaf) : ¬ P u := fun hp => hu (h.leaf u hp).1

theorem Sim.notNext (h : Sim P wi wt) : ¬ P wi.next := fun hp => absurd (h.leaf _ hp).2 (lt_irrefl _)

/-- Dependencies of the component are dependencies of the explicit group. -/
theorem Sim.edge (h : Sim P wi wt) {u v : Ref} (hv : ¬ P v) (he : v ∈ wi.deps u) : v ∈ wt.deps u := by
  refine (h.deps u v (fun hp => ?_) hv).2 he
  rw [h.bare u hp] at he
  simp at he

theorem Sim.reach (h : Sim P wi wt) {u v : Ref} (hv : ¬ P v) (hr : Reach wi.deps u v) : Reach wt.deps u v := by
  induction hr using Relation.ReflTransGen.head_induction_on with
  | refl => exact .refl
  | head hxz hz ih =>
    rename_i x z
    refine Relation.ReflTransGen.head (h.edge ?_ hxz) ih
    intro hl
    rcases Relation.ReflTransGen.cases_head hz with rfl | ⟨c, hc, _⟩
    · exact hv hl
    · unfold Edge at hc; rw [h.bare z hl] at hc; simp at hc

theorem Sim.needs (h : Sim P wi wt) {u v : Ref} (hv : ¬ P v) (hr : Needs wi.deps u v) : Needs wt.deps u v := by
  obtain ⟨c, h1, h2⟩ := Relation.TransGen.head'_iff.1 hr
  refine Relation.TransGen.head' (h.edge ?_ h1) (h.reach hv h2)
  intro hl
  rcases Relation.ReflTransGen.cases_head h2 with rfl | ⟨c', hc, _⟩
  · exact hv hl
  · unfold Edge at hc; rw [h.bare c hl] at hc; simp at hc

/-! ## Single changes of the states -/

theorem Sim.alloc (h : Sim P wi wt) (oki : WorldOk wi) (okt : WorldOk wt) (k : Kind) (nm : String) {P' : Ref → Prop}
    (hP : ∀ u, P u → P' u) (hP' : ∀ u, P' u → P u ∨ u = wi.next)
    (hnew : P' wi.next → k.isLeaf ∧ (k = .implicitOut ∨ ∃ o < wi.next, wi.kind o = .implicitOut ∧ wi.name o = nm))
    (himp : k = .implicitOut → P' wi.next) :
    Sim P' (wi.alloc k nm) (wt.alloc (if k = .implicitOut then .input else k) nm) := by
  have hne : ∀ u v, v ∈ wi.deps u → v ≠ wi.next := fun u v hv e => by
    have := (oki.range u v hv).2; omega
  have hnt : ∀ u v, v ∈ wt.deps u → v ≠ wi.next := fun u v hv e => by
    have := (okt.range u v hv).2; rw [h.next] at this; omega
  have hk : ∀ u, u ≠ wi.next → (wi.alloc k nm).kind u = wi.kind u := fun u hu => Function.update_of_ne hu ..
  have hkn : (wi.alloc k nm).kind wi.next = k := Function.update_self ..
  have hnm : ∀ u, u ≠ wi.next → (wi.alloc k nm).name u = wi.name u := fun u hu => Function.update_of_ne hu ..
  have hnn : (wi.alloc k nm).name wi.next = nm := Function.update_self ..
  have old : ∀ u, u ≠ wi.next → P' u → P u := fun u hu hp => (hP' u hp).resolve_right hu
  refine ⟨by show wt.next + 1 = wi.next + 1; rw [h.next], ?_, h.indexed, h.decomp, h.recent, ?_, ?_, ?_, ?_, ?_, ?_, ?_, ?_,
    ?_, ?_, ?_⟩
  · show Function.update wt.name wt.next nm = Function.update wi.name wi.next nm
    rw [h.next, h.name]
  · intro u
    by_cases hu : u = wi.next
    · subst hu
      rw [hkn]
      show Function.update wt.kind wt.next _ wi.next = _
      rw [h.next, Function.update_self]
    · rw [hk u hu, ← h.kind]
      exact Function.update_of_ne (by rw [h.next]; exact hu) ..
  · intro u hu
    exact h.fresh u (Nat.le_of_succ_le hu)
  · intro u hu
    by_cases hun : u = wi.next
    · exact h.fresh u hun.ge
    · rw [hk u hun] at hu
      exact h.defined u hu
  · intro u hu
    by_cases hun : u = wi.next
    · subst hun
      rw [hkn] at hu
      exact himp hu
    · rw [hk u hun] at hu
      exact hP u (h.implicit u hu)
  · intro u hu
    show _ ∧ u < wi.next + 1
    by_cases hun : u = wi.next
    · subst hun
      rw [hkn]
      exact ⟨(hnew hu).1, Nat.lt_succ_self _⟩
    · rw [hk u hun]
      have := h.leaf u (old u hun hu)
      exact ⟨this.1, Nat.lt_succ_of_lt this.2⟩
  · intro u hu
    by_cases hun : u = wi.next
    · subst hun
      rw [hnn]
      rcases (hnew hu).2 with h1 | ⟨o, h1, h2, h3⟩
      · exact ⟨wi.next, hkn.trans h1, hnn⟩
      · exact ⟨o, (hk o h1.ne).trans h2, (hnm o h1.ne).trans h3⟩
    · obtain ⟨o, h1, h2⟩ := h.out u (old u hun hu)
      have hon : o ≠ wi.next := by
        have := (h.leaf o (h.implicit o h1)).2; omega
      exact ⟨o, (hk o hon).trans h1, by rw [hnm o hon, hnm u hun, h2]⟩
  · intro u hu
    by_cases hun : u = wi.next
    · rw [hun]; exact oki.fresh _ le_rfl
    · exact h.bare u (old u hun hu)
  · intro u hu
    by_cases hun : u = wi.next
    · exact ⟨fun h1 => hne 0 u h1 hun, fun h1 => hnt 0 u h1 hun⟩
    · exact h.root u (old u hun hu)
  · intro u v hu hv
    exact h.deps u v (fun hp => hu (hP u hp)) fun hp => hv (hP v hp)
  · intro u v hu0 hu hv
    rw [hk v (hnt u v hv)]
    exact h.reads u v hu0 (fun hp => hu (hP u hp)) hv
  · intro u x hx hl
    obtain ⟨y, h1, h2, h3⟩ := h.leaves u x hx (old x (hne u x hx) hl)
    refine ⟨y, h1, hP y h2, ?_⟩
    rw [hnm y (hnt u y h1), hnm x (hne u x hx)]
    exact h3

/-- A new object that does not stand for an implicit output. -/
theorem Sim.alloc' (h : Sim P wi wt) (oki : WorldOk wi) (okt : WorldOk wt) {k : Kind} (nm : String)
    (hk : k ≠ .implicitOut) : Sim P (wi.alloc k nm) (wt.alloc k nm) := by
  have := h.alloc oki okt k nm (P' := P) (fun _ hp => hp) (fun _ hp => Or.inl hp) (fun hp => absurd hp h.notNext)
    (fun e => absurd e hk)
  rwa [if_neg hk] at this

theorem Sim.addDep (h : Sim P wi wt) {u : Ref} (v : Ref) (hu : ¬ P u) (h0 : u = 0 → ¬ P v) :
    Sim P (wi.addDep genv u v) (wt.addDep genv u v) := by
  have hi : ∀ a b, b ∈ (wi.addDep genv u v).deps a ↔ b ∈ wi.deps a ∨ (a = u ∧ b = v) :=
    fun a b => mem_addDep genv.o wi.deps u v a b
  have ht : ∀ a b, b ∈ (wt.addDep genv u v).deps a ↔ b ∈ wt.deps a ∨ (a = u ∧ b = v) :=
    fun a b => mem_addDep genv.o wt.deps u v a b
  refine ⟨h.next, h.name, h.indexed, h.decomp, h.recent, h.kind, h.fresh, h.defined, h.implicit, h.leaf, h.out, ?_, ?_, ?_,
    ?_, ?_⟩
  · intro a ha
    have : a ≠ u := fun e => hu (e ▸ ha)
    exact (addDep_of_ne _ _ _ this).trans (h.bare a ha)
  · intro b hb
    rw [hi, ht]
    have h1 := h.root b hb
    have h2 : ¬ ((0 : Ref) = u ∧ b = v) := fun e => h0 e.1.symm (by rw [← e.2]; exact hb)
    exact ⟨fun h => h.elim h1.1 h2, fun h => h.elim h1.2 h2⟩
  · intro a b ha hb
    rw [hi, ht, h.deps a b ha hb]
  · intro a b ha0 ha hb
    rcases (ht a b).1 hb with hb | hb
    · exact (h.reads a b ha0 ha hb).imp (fun h1 => (hi a b).2 (Or.inl h1)) id
    · exact Or.inl ((hi a b).2 (Or.inr hb))
  · intro a x hx hl
    rcases (hi a x).1 hx with hx | hx
    · obtain ⟨y, h1, h2⟩ := h.leaves a x hx hl
      exact ⟨y, (ht a y).2 (Or.inl h1), h2⟩
    · exact ⟨x, (ht a x).2 (Or.inr hx), hl, rfl⟩

/-- In the explicit group an implicit output may depend on a subsystem. -/
theorem Sim.addDepT (h : Sim P wi wt) {u : Ref} (v : Ref) (hu : P u) (h0 : u ≠ 0) : Sim P wi (wt.addDep genv u v) := by
  have ht : ∀ a b, b ∈ (wt.addDep genv u v).deps a ↔ b ∈ wt.deps a ∨ (a = u ∧ b = v) :=
    fun a b => mem_addDep genv.o wt.deps u v a b
  have hne : ∀ a, ¬ P a → ∀ b, b ∈ (wt.addDep genv u v).deps a ↔ b ∈ wt.deps a := fun a ha b => by
    rw [ht]
    exact ⟨fun h => h.resolve_right fun e => ha (by rw [e.1]; exact hu), Or.inl⟩
  refine ⟨h.next, h.name, h.indexed, h.decomp, h.recent, h.kind, h.fresh, h.defined, h.implicit, h.leaf, h.out, h.bare, ?_,
    ?_, ?_, ?_⟩
  · intro b hb
    refine ⟨(h.root b hb).1, fun h1 => ?_⟩
    rcases (ht 0 b).1 h1 with h1 | h1
    · exact (h.root b hb).2 h1
    · exact h0 h1.1.symm
  · intro a b ha hb
    rw [hne a ha, h.deps a b ha hb]
  · intro a b ha0 ha hb
    exact h.reads a b ha0 ha ((hne a ha b).1 hb)
  · intro a x hx hl
    obtain ⟨y, h1, h2⟩ := h.leaves a x hx hl
    exact ⟨y, (ht a y).2 (Or.inl h1), h2⟩

theorem Sim.addDeps {u : Ref} (ds : List Ref) (hu0 : u ≠ 0) : ∀ {wi wt : World}, Sim P wi wt → ¬ P u →
    Sim P (ds.foldl (fun w' d => w'.addDep genv u d) wi) (ds.foldl (fun w' d => w'.addDep genv u d) wt) := by
  induction ds with
  | nil => intro wi wt h _; exact h
  | cons d ds ih => intro wi wt h hu; exact ih (h.addDep d hu fun e => absurd e hu0) hu

theorem Sim.setName (h : Sim P wi wt) (f : Ref → String) (hf : ∀ x, P x → f x = wi.name x) :
    Sim P { wi with name := f } { wt with name := f } :=
  ⟨h.next, rfl, h.indexed, h.decomp, h.recent, h.kind, h.fresh, h.defined, h.implicit, h.leaf,
    fun u hu => by
      obtain ⟨o, h1, h2⟩ := h.out u hu
      exact ⟨o, h1, (hf o (h.implicit o h1)).trans (h2.trans (hf u hu).symm)⟩,
    h.bare, h.root, h.deps, h.reads,
    fun u x hx hl => by
      obtain ⟨y, h1, h2, h3⟩ := h.leaves u x hx hl
      exact ⟨y, h1, h2, (hf y h2).trans (h3.trans (hf x hl).symm)⟩⟩

/-! ## Calls -/

/-- What is assumed of the single calls of an implicit component: implicit outputs are not registered and are not
residuals, and `define_residual` is accepted. -/
def ImplStmt.Fine (genv : GEnv) (w : World) : ImplStmt → Prop
  | .stmt (.registerOutput _ x) => w.kind x ≠ .implicitOut
  | .stmt _ => True
  | .createImplicit _ _ => True
  | .defineResidual out e => w.kind e ≠ .implicitOut ∧ (step genv w (.defineResidual out e)).2 = none

theorem notLeaf {k : Kind} (h1 : k ≠ .input) (h2 : k ≠ .implicitOut) : ¬ k.isLeaf := by
  cases k <;> simp [Kind.isLeaf] at *

theorem Sim.register (h : Sim P wi wt) (oki : WorldOk wi) (nm : String) {x : Ref} (hx : wi.kind x ≠ .implicitOut) :
    (wt.register genv nm x).2 = (wi.register genv nm x).2 ∧
      Sim P (wi.register genv nm x).1 (wt.register genv nm x).1 := by
  unfold World.register
  rw [h.kind_same hx]
  by_cases hk : wi.kind x = .input
  · rw [if_pos hk, if_pos hk]; exact ⟨rfl, h⟩
  rw [if_neg hk, if_neg hk]
  have px : ¬ P x := h.not (notLeaf hk hx)
  have p0 : ¬ P 0 := h.not (by rw [oki.root]; simp [Kind.isLeaf])
  by_cases hm : x ∈ wi.deps 0
  · rw [if_pos hm, if_pos ((h.deps 0 x p0 px).2 hm)]; exact ⟨rfl, h⟩
  rw [if_neg hm, if_neg fun h1 => hm ((h.deps 0 x p0 px).1 h1)]
  refine ⟨rfl, ?_⟩
  show Sim P (World.addDep _ _ _ _) (World.addDep _ _ _ _)
  rw [h.name]
  refine (h.setName _ fun y hy => ?_).addDep x p0 fun _ => px
  exact Function.update_of_ne (fun e => by subst e; exact px hy) ..

theorem define_fields {w : World} {out e : Ref} (hs : (step genv w (.define out e)).2 = none) :
    w.kind out = .explicitOut ∧ e ≠ out ∧ w.defined out = false ∧
    (step genv w (.define out e)).1.next = w.next + 1 ∧
    (step genv w (.define out e)).1.kind = Function.update w.kind w.next .input ∧
    (step genv w (.define out e)).1.name = Function.update w.name w.next (w.name out) ∧
    (step genv w (.define out e)).1.defined = Function.update w.defined out true ∧
    (step genv w (.define out e)).1.indexed = w.indexed ∧
    (step genv w (.define out e)).1.decomp = w.decomp ∧
    (step genv w (.define out e)).1.recent = w.recent := by
  unfold step at hs ⊢
  simp only at hs ⊢
  split at hs
  · cases hs
  rename_i c1
  rw [if_neg c1]
  split at hs
  · cases hs
  rename_i c2
  rw [if_neg c2]
  split at hs
  · cases hs
  rename_i c3
  rw [if_neg c3]
  split at hs
  · cases hs
  rename_i g hg
  have hg' : replaceLeafNodes genv.o genv.fuel out out w.next (OM.addDep genv.o w.deps out e) = some g := hg
  refine ⟨by simpa using c1, c2, by simpa using c3, ?_, ?_, ?_, ?_, ?_, ?_, ?_⟩ <;> rfl

/-- Without feedback `define` only adds the dependency. -/
theorem define_deps {w : World} (ok : WorldOk w) {out e : Ref} (hv : (Op.define out e).Valid w)
    (hs : (step genv w (.define out e)).2 = none) (hac : AcyclicG w.deps) (hf : ¬ Reach w.deps e out) (u x : Ref) :
    x ∈ (step genv w (.define out e)).1.deps u ↔ x ∈ w.deps u ∨ (u = out ∧ x = e) := by
  have hd := (define_fields hs).2.1
  have hself : ∀ u, out ∈ w.deps u → ¬ (u = out ∨ Reach w.deps out u ∨ Reach w.deps e u) := by
    rintro u hu (rfl | h | h)
    · exact hac u (.single hu)
    · exact hac out (Relation.TransGen.tail' h hu)
    · exact hf (h.tail hu)
  rw [(c52_define ok hv hs).2.2.2.2 u x]
  constructor
  · rintro (⟨h, _⟩ | ⟨_, h1, h2⟩)
    · exact h
    · exact absurd h2 (hself u h1)
  · intro h
    refine Or.inl ⟨h, ?_⟩
    rintro ⟨rfl, h2⟩
    rcases h with h | ⟨_, h⟩
    · exact hself u h h2
    · exact hd h.symm

theorem step_define_error {w : World} {out e : Ref} (hs : (step genv w (.define out e)).2 ≠ none)
    (hr : (step genv w (.define out e)).2 ≠ some .recursionError) :
    (step genv w (.define out e)).1 = w ∧
      (w.kind out ≠ .explicitOut ∨ e = out ∨ w.defined out = true) := by
  unfold step at hs hr ⊢
  simp only at hs hr ⊢
  split
  · exact ⟨rfl, by tauto⟩
  split
  · exact ⟨rfl, by tauto⟩
  split
  · exact ⟨rfl, by tauto⟩
  rename_i c1 c2 c3
  rw [if_neg c1, if_neg c2, if_neg c3] at hs hr
  split at hs
  · rename_i hg
    rw [hg] at hr
    exact absurd rfl hr
  · exact absurd rfl hs

theorem step_define_err {w : World} {out e : Ref} (h : w.kind out ≠ .explicitOut ∨ e = out ∨ w.defined out = true) :
    (step genv w (.define out e)).1 = w ∧ (step genv w (.define out e)).2 =
      some (if w.kind out ≠ .explicitOut then .attributeError else .valueError) := by
  unfold step
  simp only
  by_cases c1 : w.kind out ≠ .explicitOut
  · rw [if_pos c1, if_pos c1]; exact ⟨rfl, rfl⟩
  · rw [if_neg c1, if_neg c1]
    by_cases c2 : e = out
    · rw [if_pos c2]; exact ⟨rfl, rfl⟩
    · rw [if_neg c2, if_pos ((h.resolve_left c1).resolve_left c2)]; exact ⟨rfl, rfl⟩

theorem Sim.define (h : Sim P wi wt) (oki : WorldOk wi) (okt : WorldOk wt) {out e : Ref}
    (hv : (Op.define out e).Valid wi) (aci : AcyclicG wi.deps) (act : AcyclicG wt.deps)
    (hsi : (Op.define out e).Safe genv wi) (hst : (Op.define out e).Safe genv wt)
    (hf : ¬ Reach wt.deps e out) :
    (step genv wt (.define out e)).2 = (step genv wi (.define out e)).2 ∧
      Sim P (step genv wi (.define out e)).1 (step genv wt (.define out e)).1 := by
  by_cases hbad : wi.kind out ≠ .explicitOut ∨ e = out ∨ wi.defined out = true
  · have hbad' : wt.kind out ≠ .explicitOut ∨ e = out ∨ wt.defined out = true := by
      by_cases hk : wi.kind out = .explicitOut
      · rw [h.defined out hk]
        exact Or.inr (hbad.resolve_left (not_not.2 hk))
      · exact Or.inl fun h1 => hk ((h.kind_eq (by decide) (by decide)).1 h1)
    obtain ⟨e1, e2⟩ := step_define_err (genv := genv) hbad
    obtain ⟨e3, e4⟩ := step_define_err (genv := genv) hbad'
    rw [e1, e2, e3, e4]
    refine ⟨?_, h⟩
    have : (wt.kind out ≠ .explicitOut) ↔ (wi.kind out ≠ .explicitOut) := not_congr (h.kind_eq (by decide) (by decide))
    simp only [this]
  · push Not at hbad
    have hi : (step genv wi (.define out e)).2 = none := by
      by_contra hn
      have := (step_define_error hn hsi).2
      rcases this with h1 | h1 | h1
      · exact h1 hbad.1
      · exact hbad.2.1 h1
      · exact hbad.2.2 h1
    have ht : (step genv wt (.define out e)).2 = none := by
      by_contra hn
      have := (step_define_error hn hst).2
      rw [h.defined out hbad.1, ne_eq, h.kind_eq (by decide) (by decide)] at this
      rcases this with h1 | h1 | h1
      · exact h1 hbad.1
      · exact hbad.2.1 h1
      · exact hbad.2.2 h1
    have hvt : (Op.define out e).Valid wt := by
      unfold Op.Valid; rw [h.next]; exact hv
    have hout : ¬ P out := h.not (by rw [hbad.1]; simp [Kind.isLeaf])
    have hout0 : out ≠ 0 := by have := hv.1.1; omega
    have di := define_deps oki hv hi aci (fun h1 => hf (h.reach hout h1))
    have dt := define_deps okt hvt ht act hf
    obtain ⟨_, _, _, i1, i2, i3, i4, i5, i6, i7⟩ := define_fields hi
    obtain ⟨_, _, _, t1, t2, t3, t4, t5, t6, t7⟩ := define_fields ht
    refine ⟨ht.trans hi.symm, ?_⟩
    generalize (step genv wi (.define out e)).1 = wi' at *
    generalize (step genv wt (.define out e)).1 = wt' at *
    have hs := (h.addDep (genv := genv) e hout fun e => absurd e hout0).alloc' (oki.addDep hv.1.2 hv.2 (by rw [hbad.1]; decide))
      (okt.addDep hvt.1.2 hvt.2 (by rw [h.kind_same (by rw [hbad.1]; decide), hbad.1]; decide)) (k := .input) (wi.name out) (by decide)
    have ai : ∀ a b, b ∈ (wi.addDep genv out e).deps a ↔ b ∈ wi.deps a ∨ (a = out ∧ b = e) :=
      fun a b => mem_addDep genv.o wi.deps out e a b
    have at' : ∀ a b, b ∈ (wt.addDep genv out e).deps a ↔ b ∈ wt.deps a ∨ (a = out ∧ b = e) :=
      fun a b => mem_addDep genv.o wt.deps out e a b
    have ei : ∀ a b, b ∈ wi'.deps a ↔ b ∈ (wi.addDep genv out e).deps a := fun a b => (di a b).trans (ai a b).symm
    have et : ∀ a b, b ∈ wt'.deps a ↔ b ∈ (wt.addDep genv out e).deps a := fun a b => (dt a b).trans (at' a b).symm
    have ki : wi'.kind = ((wi.addDep genv out e).alloc .input (wi.name out)).kind := i2
    refine ⟨by rw [t1, i1, h.next], by rw [t3, i3, h.next, h.name], by rw [t5, i5, h.indexed], by rw [t6, i6, h.decomp],
      by rw [i7, t7, h.recent], ?_, ?_, ?_, ?_, ?_, ?_, ?_, ?_, ?_, ?_, ?_⟩
    · intro u
      rw [ki, ← hs.kind u, t2]
      rfl
    · intro u hu
      rw [i4, t4]
      have : u ≠ out := by have := hv.1.2; rw [i1] at hu; omega
      rw [Function.update_of_ne this, Function.update_of_ne this]
      exact h.fresh u (by rw [i1] at hu; omega)
    · intro u hu
      rw [i4, t4]
      by_cases hu' : u = out
      · subst hu'; rw [Function.update_self, Function.update_self]
      · rw [Function.update_of_ne hu', Function.update_of_ne hu']
        exact hs.defined u (by rw [← ki]; exact hu)
    · intro u hu
      rw [ki] at hu
      exact hs.implicit u hu
    · intro u hu
      rw [ki, i1]
      exact hs.leaf u hu
    · intro u hu
      rw [ki, i3]
      exact hs.out u hu
    · intro u hu
      refine List.eq_nil_iff_forall_not_mem.2 fun x hx => ?_
      have := (ei u x).1 hx
      rw [show (wi.addDep genv out e).deps u = [] from hs.bare u hu] at this
      simp at this
    · intro u hu
      rw [ei, et]
      exact hs.root u hu
    · intro u v hu hv'
      rw [ei, et]
      exact hs.deps u v hu hv'
    · intro u v hu0 hu hv'
      rw [ki, i4]
      rcases hs.reads u v hu0 hu ((et u v).1 hv') with h1 | ⟨h1, h2⟩
      · exact Or.inl ((ei u v).2 h1)
      · refine Or.inr ⟨h1, ?_⟩
        by_cases hvo : v = out
        · rw [hvo, Function.update_self]
        · rw [Function.update_of_ne hvo]; exact h2
    · intro u x hx hl
      obtain ⟨y, h1, h2, h3⟩ := hs.leaves u x ((ei u x).1 hx) hl
      refine ⟨y, (et u y).2 h1, h2, ?_⟩
      rw [i3]
      exact h3

theorem Sim.setItem (h : Sim P wi wt) {out e : Ref} (hv : (Op.setItem out e none).Valid wi) :
    (step genv wt (.setItem out e none)).2 = (step genv wi (.setItem out e none)).2 ∧
      Sim P (step genv wi (.setItem out e none)).1 (step genv wt (.setItem out e none)).1 := by
  unfold step
  simp only
  by_cases hk : wi.kind out = .explicitOut
  · have hk' := (h.kind_eq (u := out) (k := .explicitOut) (by decide) (by decide)).2 hk
    rw [if_neg (not_not.2 hk), if_neg (not_not.2 hk')]
    refine ⟨rfl, ?_⟩
    have hs := h.addDep (genv := genv) (u := out) e (h.not (by rw [hk]; simp [Kind.isLeaf]))
      fun e0 => by have := hv.1.1; omega
    refine ⟨hs.next, hs.name, ?_, hs.decomp, hs.recent, hs.kind, ?_, ?_, hs.implicit, hs.leaf, hs.out, hs.bare, hs.root,
      hs.deps, ?_, hs.leaves⟩
    · show Function.update (World.indexed _) out true = Function.update (World.indexed _) out true
      rw [hs.indexed]
    · intro u hu
      show Function.update (World.defined _) out true u = Function.update (World.defined _) out true u
      by_cases hu' : u = out
      · subst hu'; rw [Function.update_self, Function.update_self]
      · rw [Function.update_of_ne hu', Function.update_of_ne hu']; exact hs.fresh u hu
    · intro u hu
      show Function.update (World.defined _) out true u = Function.update (World.defined _) out true u
      by_cases hu' : u = out
      · subst hu'; rw [Function.update_self, Function.update_self]
      · rw [Function.update_of_ne hu', Function.update_of_ne hu']; exact hs.defined u hu
    · intro u v hu0 hu hv
      rcases hs.reads u v hu0 hu hv with h1 | ⟨h1, h2⟩
      · exact Or.inl h1
      · refine Or.inr ⟨h1, ?_⟩
        show Function.update (World.defined _) out true v = true
        by_cases hvo : v = out
        · rw [hvo, Function.update_self]
        · rw [Function.update_of_ne hvo]; exact h2
  · have hk' := fun h1 => hk ((h.kind_eq (u := out) (k := .explicitOut) (by decide) (by decide)).1 h1)
    rw [if_pos hk, if_pos hk']
    exact ⟨rfl, h⟩

theorem Sim.getItem (h : Sim P wi wt) (oki : WorldOk wi) (okt : WorldOk wt) {x : Ref} (hv : (Op.getItem x).Valid wi) :
    (step genv wt (.getItem x)).2 = (step genv wi (.getItem x)).2 ∧
      (step genv wt (.getItem x)).1.next = (step genv wi (.getItem x)).1.next ∧
      Sim P (step genv wi (.getItem x)).1 (step genv wt (.getItem x)).1 := by
  have hvt : 0 < x ∧ x < wt.next := by rw [h.next]; exact hv
  cases hd : wi.decomp x with
  | some d =>
    have hd' : wt.decomp x = some d := by rw [h.decomp, hd]
    have ei : step genv wi (.getItem x) = ((wi.alloc .item (genv.autoName wi.next)).addDep genv wi.next d, none) := by
      unfold step; simp only [hd]
    have et : step genv wt (.getItem x) = ((wt.alloc .item (genv.autoName wt.next)).addDep genv wt.next d, none) := by
      unfold step; simp only [hd']
    have hs : Sim P ((wi.alloc .item (genv.autoName wi.next)).addDep genv wi.next d)
        ((wt.alloc .item (genv.autoName wi.next)).addDep genv wi.next d) :=
      (h.alloc' oki okt (genv.autoName wi.next) (by decide)).addDep (genv := genv) (u := wi.next) d h.notNext
        fun e => absurd e oki.pos.ne'
    rw [ei, et, h.next]
    exact ⟨rfl, hs.next, hs⟩
  | none =>
    have hd' : wt.decomp x = none := by rw [h.decomp, hd]
    have hs0 : Sim P ((wi.alloc .decomp ("decompose_" ++ wi.name x)).addDep genv wi.next x)
        ((wt.alloc .decomp ("decompose_" ++ wi.name x)).addDep genv wi.next x) :=
      (h.alloc' oki okt ("decompose_" ++ wi.name x) (by decide)).addDep (genv := genv) (u := wi.next) x h.notNext
        fun e => absurd e oki.pos.ne'
    have oki0 : WorldOk ((wi.alloc .decomp ("decompose_" ++ wi.name x)).addDep genv wi.next x) :=
      (oki.alloc _ _).addDep (Nat.lt_succ_self _) ⟨hv.1, Nat.lt_succ_of_lt hv.2⟩
        (by show Function.update wi.kind wi.next _ wi.next ≠ _; rw [Function.update_self]; decide)
    have okt0 : WorldOk ((wt.alloc .decomp ("decompose_" ++ wt.name x)).addDep genv wt.next x) :=
      (okt.alloc _ _).addDep (Nat.lt_succ_self _) ⟨hvt.1, Nat.lt_succ_of_lt hvt.2⟩
        (by show Function.update wt.kind wt.next _ wt.next ≠ _; rw [Function.update_self]; decide)
    have hs1 : Sim P { ((wi.alloc .decomp ("decompose_" ++ wi.name x)).addDep genv wi.next x) with
          decomp := Function.update wi.decomp x (some wi.next) }
        { ((wt.alloc .decomp ("decompose_" ++ wi.name x)).addDep genv wi.next x) with
          decomp := Function.update wi.decomp x (some wi.next) } :=
      ⟨hs0.next, hs0.name, hs0.indexed, rfl, hs0.recent, hs0.kind, hs0.fresh, hs0.defined, hs0.implicit, hs0.leaf, hs0.out,
        hs0.bare, hs0.root, hs0.deps, hs0.reads, hs0.leaves⟩
    have dcp : ∀ (w : World), WorldOk w → 0 < w.next → ∀ y d, Function.update w.decomp x (some w.next) y = some d →
        0 < d ∧ d < w.next + 1 := by
      intro w ok hp y d hy
      by_cases hyx : y = x
      · rw [hyx, Function.update_self] at hy; cases hy; exact ⟨hp, Nat.lt_succ_self _⟩
      · rw [Function.update_of_ne hyx] at hy
        have := ok.decomp y d hy
        exact ⟨this.1, Nat.lt_succ_of_lt this.2⟩
    have oki1 : WorldOk { ((wi.alloc .decomp ("decompose_" ++ wi.name x)).addDep genv wi.next x) with
          decomp := Function.update wi.decomp x (some wi.next) } :=
      ⟨oki0.pos, oki0.fresh, oki0.range, oki0.nodup, oki0.indep, oki0.recent, dcp wi oki oki.pos, oki0.root⟩
    have okt1 : WorldOk { ((wt.alloc .decomp ("decompose_" ++ wi.name x)).addDep genv wi.next x) with
          decomp := Function.update wi.decomp x (some wi.next) } := by
      have := dcp wt okt okt.pos
      rw [h.decomp, h.next] at this
      rw [h.next, h.name] at okt0
      exact ⟨okt0.pos, okt0.fresh, okt0.range, okt0.nodup, okt0.indep, okt0.recent,
        fun y d hy => by have := this y d hy; exact ⟨this.1, by show d < wt.next + 1; rw [h.next]; exact this.2⟩, okt0.root⟩
    have ei : step genv wi (.getItem x) = ((({ ((wi.alloc .decomp ("decompose_" ++ wi.name x)).addDep genv wi.next x) with
          decomp := Function.update wi.decomp x (some wi.next) } : World).alloc .item
            (genv.autoName (wi.next + 1))).addDep genv (wi.next + 1) wi.next, none) := by
      unfold step; simp only [hd, Function.update_self]; rfl
    have et : step genv wt (.getItem x) = ((({ ((wt.alloc .decomp ("decompose_" ++ wi.name x)).addDep genv wi.next x) with
          decomp := Function.update wi.decomp x (some wi.next) } : World).alloc .item
            (genv.autoName (wi.next + 1))).addDep genv (wi.next + 1) wi.next, none) := by
      unfold step; simp only [hd', h.next, h.name, h.decomp, Function.update_self]
      show (World.addDep _ (World.alloc _ _ (genv.autoName (wt.next + 1))) (wt.next + 1) _, _) = _
      rw [h.next]
    have hs := (hs1.alloc' oki1 okt1 (k := .item) (genv.autoName (wi.next + 1)) (by decide)).addDep (genv := genv)
      (u := wi.next + 1) wi.next hs1.notNext fun e => absurd e (Nat.succ_ne_zero _)
    rw [ei, et]
    exact ⟨rfl, hs.next, hs⟩

theorem Sim.declareInput (h : Sim P wi wt) (oki : WorldOk wi) (okt : WorldOk wt) (n : String) :
    Sim P (step genv wi (.declareInput n)).1 (step genv wt (.declareInput n)).1 := by
  have hs := h.alloc' oki okt (k := .input) n (by decide)
  unfold step
  simp only [h.recent, h.next]
  cases wi.recent with
  | none => exact hs
  | some s => exact hs.addDep s h.notNext fun e => absurd e oki.pos.ne'

/-- A new object that stands for an implicit output. -/
theorem Sim.newOut (h : Sim P wi wt) (oki : WorldOk wi) (okt : WorldOk wt) {k : Kind} (n : String) (hk : k.isLeaf)
    (hn : k = .implicitOut ∨ ∃ o < wi.next, wi.kind o = .implicitOut ∧ wi.name o = n) :
    Sim (fun u => P u ∨ u = wi.next) (wi.alloc k n) (step genv wt (.declareInput n)).1 := by
  have hs := h.alloc oki okt k n (P' := fun u => P u ∨ u = wi.next) (fun _ => Or.inl) (fun _ hp => hp)
    (fun _ => ⟨hk, hn⟩) (fun _ => Or.inr rfl)
  have hk' : (if k = .implicitOut then Kind.input else k) = .input := by
    cases k <;> simp [Kind.isLeaf] at hk ⊢
  rw [hk'] at hs
  unfold step
  simp only [h.next]
  cases wt.recent with
  | none => exact hs
  | some s => exact hs.addDepT s (Or.inr rfl) oki.pos.ne'

theorem Sim.createIndep (h : Sim P wi wt) (oki : WorldOk wi) (okt : WorldOk wt) (n : String) :
    (step genv wt (.createIndep n)).2 = (step genv wi (.createIndep n)).2 ∧
      Sim P (step genv wi (.createIndep n)).1 (step genv wt (.createIndep n)).1 := by
  have hs := h.alloc' oki okt (k := .indep) n (by decide)
  have ok1 := oki.alloc .indep n
  have hk : (wi.alloc .indep n).kind wi.next = .indep := Function.update_self ..
  unfold step
  simp only [h.recent, h.next]
  cases hr : wi.recent with
  | none => exact hs.register ok1 n (by rw [hk]; decide)
  | some s =>
    have hrs := oki.recent s hr
    have hsk : ¬ P s := h.not (by rw [hrs.2.2]; simp [Kind.isLeaf])
    have hks : (wi.alloc .indep n).kind s ≠ .indep := by
      show Function.update wi.kind wi.next _ s ≠ _
      rw [Function.update_of_ne (by have := hrs.2.1; omega), hrs.2.2]
      decide
    refine (hs.addDep (genv := genv) (u := s) wi.next hsk fun e => absurd e (by have := hrs.1; omega)).register
      (ok1.addDep (Nat.lt_succ_of_lt hrs.2.1) ⟨oki.pos, Nat.lt_succ_self _⟩ hks) n ?_
    show (wi.alloc .indep n).kind wi.next ≠ _
    rw [hk]
    decide

theorem mem_addDeps_of {w : World} {u : Ref} (ds : List Ref) (a b : Ref) :
    b ∈ (ds.foldl (fun w' d => w'.addDep genv u d) w).deps a ↔ b ∈ w.deps a ∨ (a = u ∧ b ∈ ds) := by
  induction ds generalizing w with
  | nil => simp
  | cons d ds ih =>
    rw [List.foldl_cons, ih]
    have : b ∈ (w.addDep genv u d).deps a ↔ b ∈ w.deps a ∨ (a = u ∧ b = d) := mem_addDep genv.o w.deps u d a b
    rw [this, List.mem_cons]
    tauto

theorem addDeps_rest {w : World} {u : Ref} (ds : List Ref) :
    (ds.foldl (fun w' d => w'.addDep genv u d) w) =
      { w with deps := (ds.foldl (fun w' d => w'.addDep genv u d) w).deps } := by
  induction ds generalizing w with
  | nil => rfl
  | cons d ds ih =>
    rw [List.foldl_cons]
    exact ih

/-- The same dependencies, in any order. -/
theorem Sim.sameT (h : Sim P wi wt) (g : Ref → List Ref) (hg : ∀ a b, b ∈ g a ↔ b ∈ wt.deps a) :
    Sim P wi { wt with deps := g } :=
  ⟨h.next, h.name, h.indexed, h.decomp, h.recent, h.kind, h.fresh, h.defined, h.implicit, h.leaf, h.out, h.bare,
    fun u hu => ⟨(h.root u hu).1, fun h1 => (h.root u hu).2 ((hg 0 u).1 h1)⟩,
    fun u v hu hv => (hg u v).trans (h.deps u v hu hv), fun u v h0 hu hv => h.reads u v h0 hu ((hg u v).1 hv),
    fun u x hx hl => by
      obtain ⟨y, h1, h2⟩ := h.leaves u x hx hl
      exact ⟨y, (hg u y).2 h1, h2⟩⟩

theorem Sim.addSubsystem (h : Sim P wi wt) (oki : WorldOk wi) (okt : WorldOk wt) (n : String) :
    Sim P (step genv wi (.addSubsystem n)).1 (step genv wt (.addSubsystem n)).1 := by
  have hs := h.alloc' oki okt (k := .subsystem) n (by decide)
  have p0 : ¬ P 0 := h.not (by rw [oki.root]; simp [Kind.isLeaf])
  have hroot : ∀ b, b ∈ wt.deps 0 ↔ b ∈ wi.deps 0 := fun b => by
    by_cases hb : P b
    · exact ⟨fun h1 => absurd h1 (h.root b hb).2, fun h1 => absurd h1 (h.root b hb).1⟩
    · exact h.deps 0 b p0 hb
  have h1 := Sim.addDeps (genv := genv) (wi.deps 0) (u := wi.next) oki.pos.ne' hs h.notNext
  have h2 : Sim P ((wi.deps 0).foldl (fun w' d => w'.addDep genv wi.next d) (wi.alloc .subsystem n))
      ((wt.deps 0).foldl (fun w' d => w'.addDep genv wi.next d) (wt.alloc .subsystem n)) := by
    have := h1.sameT ((wt.deps 0).foldl (fun w' d => w'.addDep genv wi.next d) (wt.alloc .subsystem n)).deps fun a b => by
      rw [mem_addDeps_of, mem_addDeps_of, hroot]
    rw [addDeps_rest (w := wt.alloc .subsystem n) (wi.deps 0)] at this
    rw [addDeps_rest (w := wt.alloc .subsystem n) (wt.deps 0)]
    exact this
  have h3 := h2.addDep (genv := genv) (u := 0) wi.next p0 fun _ => h.notNext
  unfold step
  simp only [h.next]
  exact ⟨h3.next, h3.name, h3.indexed, h3.decomp, rfl, h3.kind, h3.fresh, h3.defined, h3.implicit, h3.leaf, h3.out, h3.bare,
    h3.root, h3.deps, h3.reads, h3.leaves⟩

/-- All calls that are not about implicit outputs. -/
theorem Sim.stmt (h : Sim P wi wt) (oki : WorldOk wi) (okt : WorldOk wt) {st : Stmt} (hv : st.op.Valid wi)
    (aci : AcyclicG wi.deps) (act : AcyclicG wt.deps) (hsi : st.op.Safe genv wi) (hst : st.op.Safe genv wt)
    (hfine : (ImplStmt.stmt st).Fine genv wi)
    (hf : ∀ out e, st = .define out e → ¬ Reach wt.deps e out) :
    (step genv wt st.op).2 = (step genv wi st.op).2 ∧
      Sim P (step genv wi st.op).1 (step genv wt st.op).1 := by
  cases st with
  | declareInput n s => exact ⟨rfl, h.declareInput oki okt n⟩
  | createIndep n s => exact h.createIndep oki okt n
  | createOutput n s =>
    refine ⟨rfl, ?_⟩
    show Sim P ((wi.alloc .explicitOut n).addDep genv 0 wi.next) ((wt.alloc .explicitOut n).addDep genv 0 wt.next)
    rw [h.next]
    exact (h.alloc' oki okt n (by decide)).addDep wi.next (h.not (by rw [oki.root]; simp [Kind.isLeaf])) fun _ => h.notNext
  | expr c =>
    refine ⟨rfl, ?_⟩
    show Sim P (c.refs.foldl (fun w' a => w'.addDep genv wi.next a) (wi.alloc .expr (genv.autoName wi.next)))
      (c.refs.foldl (fun w' a => w'.addDep genv wt.next a) (wt.alloc .expr (genv.autoName wt.next)))
    rw [h.next]
    exact Sim.addDeps _ oki.pos.ne' (h.alloc' oki okt _ (by decide)) h.notNext
  | registerOutput n x => exact h.register oki n hfine
  | define out e => exact h.define oki okt hv aci act hsi hst (hf out e rfl)
  | getItem x key =>
    have := h.getItem (genv := genv) oki okt hv
    exact ⟨this.1, this.2.2⟩
  | setItem out key e => exact h.setItem hv
  | addSubsystem n => exact ⟨rfl, h.addSubsystem oki okt n⟩

theorem residual_fields {w : World} (ok : WorldOk w) {out e : Ref} (hv : (Op.defineResidual out e).Valid w)
    (hs : (step genv w (.defineResidual out e)).2 = none) :
    w.kind out = .implicitOut ∧ e ≠ out ∧ w.kind e ≠ .input ∧ e ∉ w.deps 0 ∧
    (step genv w (.defineResidual out e)).1.next = w.next + 1 ∧
    (step genv w (.defineResidual out e)).1.kind = Function.update w.kind w.next .input ∧
    (step genv w (.defineResidual out e)).1.name =
      Function.update (Function.update w.name w.next (w.name out)) e (w.name e) ∧
    (step genv w (.defineResidual out e)).1.defined = Function.update w.defined out true ∧
    (step genv w (.defineResidual out e)).1.indexed = w.indexed ∧
    (step genv w (.defineResidual out e)).1.decomp = w.decomp ∧
    (step genv w (.defineResidual out e)).1.recent = w.recent := by
  have hne' : e ≠ w.next := by have := hv.2.2; omega
  unfold step at hs ⊢
  simp only at hs ⊢
  split at hs
  · cases hs
  rename_i c1
  rw [if_neg c1]
  split at hs
  · cases hs
  rename_i c2
  rw [if_neg c2]
  split at hs
  · cases hs
  rename_i c3
  rw [if_neg c3]
  split at hs
  · cases hs
  rename_i g hg
  split at hs
  · cases hs
  rename_i herr
  simp only [herr]
  have hne : w.next ≠ out := by have := hv.1.2; omega
  obtain ⟨_, _, _, _, hP⟩ := replaceLeafNodes_spec hne ok.nodup (ok.fresh _ le_rfl) (ok.finite out) hg
  have g0 : g 0 = w.deps 0 := by
    refine hP (fun u => u ≠ 0) hv.1.1.ne' ok.pos.ne' hv.2.1.ne' (fun u _ x hx => (ok.range u x hx).1.ne') 0 (by simp)
  have ke : (w.alloc .input (w.name out)).kind e = w.kind e := Function.update_of_ne hne' ..
  have ne : (w.alloc .input (w.name out)).name e = w.name e := Function.update_of_ne hne' ..
  unfold World.register at herr ⊢
  by_cases c4 : w.kind e = .input
  · rw [if_pos (ke.trans c4)] at herr; cases herr
  have c4' : ¬ (w.alloc .input (w.name out)).kind e = .input := by rw [ke]; exact c4
  rw [if_neg c4'] at herr ⊢
  by_cases c5 : e ∈ w.deps 0
  · rw [if_pos (by show e ∈ g 0; rw [g0]; exact c5)] at herr; cases herr
  rw [if_neg (by show e ∉ g 0; rw [g0]; exact c5), ne]
  exact ⟨by simpa using c1, c2, c4, c5, rfl, rfl, rfl, rfl, rfl, rfl, rfl⟩

theorem Sim.defineResidual (h : Sim P wi wt) (oki : WorldOk wi) (okt : WorldOk wt) {out e : Ref}
    (hv : (Op.defineResidual out e).Valid wi) (hfine : (ImplStmt.defineResidual out e).Fine genv wi) :
    Sim (fun u => P u ∨ u = wi.next) (step genv wi (.defineResidual out e)).1
      (step genv (step genv wt (.declareInput (wi.name out))).1 (.registerOutput (wi.name e) e)).1 := by
  obtain ⟨i1, i2, i3, i4, i5, i6, i7, i8, i9, i10, i11⟩ := residual_fields oki hv hfine.2
  obtain ⟨_, _, _, _, j5, j6⟩ := c63_residual_partial oki hv hfine.2
  have hne' : e ≠ wi.next := by have := hv.2.2; omega
  have pout : P out := h.implicit out i1
  have pe : ¬ P e := h.not (notLeaf i3 hfine.1)
  have p0 : ¬ P 0 := h.not (by rw [oki.root]; simp [Kind.isLeaf])
  have hs := h.newOut (genv := genv) oki okt (k := .input) (wi.name out) trivial (Or.inr ⟨out, hv.1.2, i1, rfl⟩)
  have okt1 := step_ok (env := genv) okt (op := .declareInput (wi.name out)) trivial
  -- after `declareInput`, then `register`
  have hreg := hs.register (genv := genv) (oki.alloc .input (wi.name out)) (wi.name e) (x := e) (by
    show Function.update wi.kind wi.next _ e ≠ _
    rw [Function.update_of_ne hne']; exact hfine.1)
  have hw2 : (step genv (step genv wt (.declareInput (wi.name out))).1 (.registerOutput (wi.name e) e)).1 =
      ((step genv wt (.declareInput (wi.name out))).1.register genv (wi.name e) e).1 := rfl
  rw [hw2]
  generalize ((step genv wt (.declareInput (wi.name out))).1.register genv (wi.name e) e).1 = wt' at *
  obtain ⟨-, hreg⟩ := hreg
  have hri : ((wi.alloc .input (wi.name out)).register genv (wi.name e) e).1 =
      ({ wi.alloc .input (wi.name out) with
        name := Function.update (wi.alloc .input (wi.name out)).name e (wi.name e) } : World).addDep genv 0 e := by
    unfold World.register
    rw [if_neg, if_neg]
    · exact i4
    · show Function.update wi.kind wi.next _ e ≠ _
      rw [Function.update_of_ne hne']
      exact i3
  rw [hri] at hreg
  have dr : ∀ u x, x ∈ (({ wi.alloc .input (wi.name out) with
      name := Function.update (wi.alloc .input (wi.name out)).name e (wi.name e) } : World).addDep genv 0 e).deps u ↔
      x ∈ wi.deps u ∨ (u = 0 ∧ x = e) := fun u x => mem_addDep genv.o wi.deps 0 e u x
  generalize hq : (({ wi.alloc .input (wi.name out) with
      name := Function.update (wi.alloc .input (wi.name out)).name e (wi.name e) } : World).addDep genv 0 e) = wr at *
  have wk : wr.kind = Function.update wi.kind wi.next .input := by rw [← hq]; rfl
  have wn : wr.name = Function.update (Function.update wi.name wi.next (wi.name out)) e (wi.name e) := by rw [← hq]; rfl
  have wx : wr.next = wi.next + 1 := by rw [← hq]; rfl
  have wd : wr.defined = wi.defined := by rw [← hq]; rfl
  have wix : wr.indexed = wi.indexed := by rw [← hq]; rfl
  have wdc : wr.decomp = wi.decomp := by rw [← hq]; rfl
  have wrc : wr.recent = wi.recent := by rw [← hq]; rfl
  generalize (step genv wi (.defineResidual out e)).1 = wi' at *
  have kk : wi'.kind = wr.kind := i6.trans wk.symm
  have nn : wi'.name = wr.name := i7.trans wn.symm
  have kout : wr.kind out = .implicitOut := by
    rw [wk, Function.update_of_ne (by have := hv.1.2; omega), i1]
  -- only the objects that stand for implicit outputs change
  have d0 : ∀ x, x ∈ wi'.deps 0 ↔ x ∈ wr.deps 0 := fun x => by rw [j5, dr]; simp
  have di : ∀ u x, ¬ (P x ∨ x = wi.next) → (x ∈ wi'.deps u ↔ x ∈ wr.deps u) := by
    intro u x hx
    by_cases hu : u = 0
    · subst hu; exact d0 x
    · rw [dr]
      have n1 : x ≠ out := fun e => hx (Or.inl (by rw [e]; exact pout))
      have n2 : x ≠ wi.next := fun e => hx (Or.inr e)
      rcases j6 u hu with h3 | ⟨_, _, h3⟩
      · rw [h3]; simp [hu]
      · rw [h3]; simp [n1, n2, hu]
  refine ⟨?_, ?_, ?_, ?_, ?_, ?_, ?_, ?_, ?_, ?_, ?_, ?_, ?_, ?_, ?_, ?_⟩
  · rw [i5, hreg.next, wx]
  · rw [nn]; exact hreg.name
  · rw [i9, ← wix]; exact hreg.indexed
  · rw [i10, ← wdc]; exact hreg.decomp
  · rw [i11, ← wrc]; exact hreg.recent
  · intro u
    rw [kk]
    exact hreg.kind u
  · intro u hu
    rw [i5] at hu
    rw [i8, Function.update_of_ne (by have := hv.1.2; omega), ← wd]
    exact hreg.fresh u (by rw [wx]; exact hu)
  · intro u hu
    rw [kk] at hu
    have : u ≠ out := by rintro rfl; rw [kout] at hu; cases hu
    rw [i8, Function.update_of_ne this, ← wd]
    exact hreg.defined u hu
  · intro u hu
    rw [kk] at hu
    exact hreg.implicit u hu
  · intro u hu
    rw [kk, i5, ← wx]
    exact hreg.leaf u hu
  · intro u hu
    rw [kk, nn]
    exact hreg.out u hu
  · intro u hu
    have h1 := hreg.bare u hu
    have hu0 : u ≠ 0 := by
      rintro rfl
      rcases hu with hu | hu
      · exact p0 hu
      · exact oki.pos.ne hu
    have h2 : wi.deps u = [] := List.eq_nil_iff_forall_not_mem.2 fun x hx => by
      have := (dr u x).2 (Or.inl hx)
      rw [h1] at this
      simp at this
    rcases j6 u hu0 with h5 | ⟨h5, _⟩
    · rw [h5, h2]
    · rw [h2] at h5; simp at h5
  · intro u hu
    rw [d0]
    exact hreg.root u hu
  · intro u x hu hx
    rw [di u x hx]
    exact hreg.deps u x hu hx
  · intro u v hu0 hu hv'
    rw [kk, i8]
    rcases hreg.reads u v hu0 hu hv' with h4 | ⟨h4, h5⟩
    · have h4 : v ∈ wi.deps u := ((dr u v).1 h4).resolve_right fun h => hu0 h.1
      by_cases hvo : v = out
      · subst hvo
        exact Or.inr ⟨kout, by rw [Function.update_self]⟩
      · left
        rcases j6 u hu0 with h5 | ⟨_, _, h5⟩
        · rw [h5]; exact h4
        · exact (h5 v).2 (Or.inl ⟨h4, hvo⟩)
    · refine Or.inr ⟨h4, ?_⟩
      by_cases hvo : v = out
      · rw [hvo, Function.update_self]
      · rw [Function.update_of_ne hvo, ← wd]; exact h5
  · intro u x hx hl
    rw [nn]
    by_cases hu : u = 0
    · subst hu
      exact hreg.leaves 0 x ((d0 x).1 hx) hl
    · by_cases hxn : x = wi.next
      · rcases j6 u hu with h3 | ⟨h3, _⟩
        · rw [h3] at hx
          have := (oki.range u x hx).2
          omega
        · obtain ⟨y, h4, h5, h6⟩ := hreg.leaves u out ((dr u out).2 (Or.inl h3)) (Or.inl pout)
          refine ⟨y, h4, h5, h6.trans ?_⟩
          have ho : out ≠ wi.next := by have := hv.1.2; omega
          rw [hxn, wn, Function.update_of_ne (Ne.symm hne'), Function.update_self, Function.update_of_ne (Ne.symm i2),
            Function.update_of_ne ho]
      · have hx' : x ∈ wi.deps u := by
          rcases j6 u hu with h3 | ⟨_, _, h3⟩
          · rw [h3] at hx; exact hx
          · rcases (h3 x).1 hx with h4 | h4
            · exact h4.1
            · exact absurd h4 hxn
        exact hreg.leaves u x ((dr u x).2 (Or.inl hx')) hl

end
end OM

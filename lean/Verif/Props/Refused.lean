import Verif.Lemmas.RefusedRun
import Verif.Lemmas.ReplaceVisits
import Verif.Props.GroupApi

/-! # C85: what refused calls leave behind -/

namespace OM

open Spec

variable {genv : GEnv}

/-! ## Calls that look at their arguments first -/

/-- A call that raises leaves the group as it was, unless it is an indexed assignment to a created
output, or a `define` or `define_residual` that its first checks (another object than the output itself,
not yet defined) let pass. -/
theorem c85_unchanged_partial {x : XWorld} (h : XOk x) {op : XOp} {err : PyErr}
    (he : (xstep genv x op).2 = some err)
    (h1 : ∀ out e, op = .api (.define out e) → x.w.kind out = .explicitOut →
      e = out ∨ x.w.defined out = true)
    (h2 : ∀ out b, op = .defineOther out b → x.w.kind out = .explicitOut → x.w.defined out = true)
    (h3 : ∀ out e c, op = .api (.setItem out e c) → x.w.kind out ≠ .explicitOut)
    (h4 : ∀ out b er, op = .setItemOther out b er → x.w.kind out ≠ .explicitOut)
    (h5 : ∀ out e, op = .api (.defineResidual out e) → x.w.kind out = .implicitOut →
      e = out ∨ x.w.defined out = true) :
    (xstep genv x op).1 = x := by
  cases op with
  | registerOther er => rfl
  | residualOther out => simp only [xstep]; split <;> [rfl; (split <;> rfl)]
  | defineOther out b =>
    by_cases hk : x.w.kind out = .explicitOut
    · simp [xstep, hk, h2 out b rfl hk]
    · simp [xstep, hk]
  | setItemOther out b er => simp [xstep, h4 out b er rfl]
  | api op =>
    cases op with
    | define out e =>
      by_cases hk : x.w.kind out = .explicitOut
      · rcases h1 out e rfl hk with hc | hc
        · simp [xstep, hk, hc]
        · by_cases hd : e = out <;> simp [xstep, hk, hc, hd]
      · simp [xstep, hk]
    | setItem out e c => simp [xstep, h3 out e c rfl]
    | defineResidual out e =>
      by_cases hk : x.w.kind out = .implicitOut
      · rcases h5 out e rfl hk with hc | hc
        · simp [xstep, hk, hc]
        · by_cases hd : e = out <;> simp [xstep, hk, hc, hd]
      · simp [xstep, hk]
    | registerOutput nm a =>
      simp only [xstep, step, World.register] at he ⊢
      split at he
      · rename_i hk; simp [hk]
      · split at he
        · rename_i hk hm; simp [hk, hm]
        · simp at he
    | createIndep nm =>
      exfalso
      have hn : x.w.next ∉ x.w.deps 0 := fun hm => absurd (h.range 0 _ hm).2 (lt_irrefl _)
      simp only [xstep, step] at he
      cases hr : x.w.recent with
      | none => simp [hr, World.register, World.alloc, hn] at he
      | some s =>
        have hs : (0 : Ref) ≠ s := ((h.recent s hr).1).ne
        simp [hr, World.register, World.alloc, World.addDep, OM.addDep, Function.update_of_ne hs, hn] at he
    | getItem a =>
      exfalso
      simp only [xstep, step] at he
      cases hr : x.w.decomp a with
      | none => simp [hr] at he
      | some s => simp [hr] at he
    | _ => simp [xstep, step] at he

/-! ## Objects that are not expressions -/

theorem registerNodesX_sound {other : Ref → Option Bool} {g : Graph} (limit : Nat) :
    ∀ (u : Ref) (nodes ns : List Ref), registerNodesX other g limit u nodes = .ok ns →
      (∀ v ∈ g u, other v = none ∧ v ∈ ns) ∧ (∀ v ∈ nodes, v ∈ ns) ∧
      ∀ v ∈ ns, v ∉ nodes → ∀ d ∈ g v, other d = none := by
  induction limit with
  | zero => intro u nodes ns h; simp [registerNodesX] at h
  | succ limit ih =>
    intro u nodes ns h
    rw [registerNodesX] at h
    generalize g u = l at h
    induction l generalizing nodes with
    | nil =>
      simp only [List.foldlM_nil] at h
      cases h
      exact ⟨by simp, fun _ h => h, fun v hv hn => absurd hv hn⟩
    | cons a l ihl =>
      rw [List.foldlM_cons] at h
      by_cases ho : (other a).isSome
      · simp [ho, bind, Except.bind] at h
      · have ho' : other a = none := by simpa using ho
        simp only [ho'] at h
        by_cases hm : a ∈ nodes
        · simp only [Option.isSome_none, Bool.false_eq_true, if_false, hm, if_true] at h
          obtain ⟨h1, h2, h3⟩ := ihl nodes h
          refine ⟨?_, h2, h3⟩
          intro v hv
          rcases List.mem_cons.1 hv with rfl | hv
          · exact ⟨ho', h2 _ hm⟩
          · exact h1 v hv
        · simp only [Option.isSome_none, Bool.false_eq_true, if_false, hm] at h
          cases hr : registerNodesX other g limit a (nodes ++ [a]) with
          | error e => rw [hr] at h; simp [bind, Except.bind] at h
          | ok n1 =>
            rw [hr] at h
            obtain ⟨g1, g2, g3⟩ := ih a (nodes ++ [a]) n1 hr
            obtain ⟨h1, h2, h3⟩ := ihl n1 h
            refine ⟨?_, fun v hv => h2 v (g2 v (List.mem_append_left _ hv)), ?_⟩
            · intro v hv
              rcases List.mem_cons.1 hv with rfl | hv
              · exact ⟨ho', h2 _ (g2 _ (by simp))⟩
              · exact h1 v hv
            · intro v hv hn d hd
              by_cases hv1 : v ∈ n1
              · by_cases hva : v = a
                · subst hva; exact (g1 d hd).1
                · exact g3 v hv1 (by simp [hn, hva]) d hd
              · exact h3 v hv hv1 d hd

/-- A registered output with such an object in its list: no setup succeeds. -/
theorem setupX_raises {x : XWorld} {out r : Ref} (h0 : out ∈ x.w.deps 0) (h1 : r ∈ x.w.deps out)
    (h2 : (x.other r).isSome) (env : SetupEnv) : ∃ err, setupX env x = .error err := by
  unfold setupX
  cases hr : registerNodesX x.other x.w.deps env.limit 0 [] with
  | error e => exact ⟨e, rfl⟩
  | ok ns =>
    obtain ⟨g1, g2, g3⟩ := registerNodesX_sound _ _ _ _ hr
    have := g3 out (g1 out h0).2 (by simp) r h1
    rw [this] at h2; cases h2

/-- The search for the output does not end well when such an object is in the list of the output. -/
theorem scanX_raises {o : SetOrder Ref} {other : Ref → Option Bool} {root leaf r : Ref}
    (hr : other root = none) (hs : (other r).isSome) (fuel : Nat) :
    (∀ (obj i : Nat) (h : DepHeap), r ∈ h.deps root → r ∈ (h.lists root obj).drop i →
      ∃ err, (scanX o other root leaf fuel root obj i h).2 = some err) ∧
    (∀ (node obj i : Nat) (h : DepHeap), node ≠ root → r ∈ h.deps root →
      (scanX o other root leaf fuel node obj i h).2 = none →
      (scanX o other root leaf fuel node obj i h).1.lists root = h.lists root ∧
      (scanX o other root leaf fuel node obj i h).1.ver root = h.ver root) := by
  have hne : r ≠ root := by rintro rfl; simp [hr] at hs
  induction fuel with
  | zero => exact ⟨fun _ _ _ _ _ => ⟨_, rfl⟩, fun _ _ _ _ _ _ h => by simp [scanX] at h⟩
  | succ fuel ih =>
    constructor
    · intro obj i h hd hm
      rw [scanX]
      cases hi : (h.lists root obj)[i]? with
      | none =>
        rw [List.getElem?_eq_none_iff] at hi
        rw [List.drop_eq_nil_of_le hi] at hm
        simp at hm
      | some dep =>
        simp only
        by_cases hdr : dep = root
        · subst hdr
          simp only [if_true]
          have hk := hd
          have hrep : ∀ h1, replaceDepX o other dep leaf dep h = (h1, none) → r ∈ h1.deps dep := by
            intro h1 he
            unfold replaceDepX at he
            simp only at he
            split at he
            · simp at he
            · cases he
              simpa [replaceDep, DepHeap.deps, o.mem_iff] using mem_kept (leaf := leaf) hd hne
          rcases hp : replaceDepX o other dep leaf dep h with ⟨h1, _ | err⟩
          · simp only [hr, Option.isSome_none, Bool.false_eq_true, if_false]
            obtain ⟨err, h2⟩ := ih.1 (h1.ver dep) 0 h1 (hrep h1 hp) (by rw [List.drop_zero]; exact hrep h1 hp)
            rcases hq : scanX o other dep leaf fuel dep (h1.ver dep) 0 h1 with ⟨h3, _ | er⟩
            · rw [hq] at h2; cases h2
            · exact ⟨er, rfl⟩
          · exact ⟨err, rfl⟩
        · simp only [hdr, if_false]
          by_cases hod : (other dep).isSome
          · exact ⟨.attributeError, by simp [hod]⟩
          · simp only [hod]
            rcases hq : scanX o other root leaf fuel dep (h.ver dep) 0 h with ⟨h3, _ | er⟩
            · have h4 := ih.2 dep (h.ver dep) 0 h hdr hd (by rw [hq])
              rw [hq] at h4
              have h4 : h3.lists root = h.lists root ∧ h3.ver root = h.ver root := h4
              refine ih.1 obj (i + 1) h3 ?_ ?_
              · show r ∈ h3.lists root (h3.ver root)
                rw [h4.1, h4.2]; exact hd
              · rw [h4.1]
                rw [List.getElem?_eq_some_iff] at hi
                obtain ⟨hlt, hi⟩ := hi
                rw [List.drop_eq_getElem_cons hlt, hi] at hm
                rcases List.mem_cons.1 hm with rfl | hm
                · exact absurd hs hod
                · exact hm
            · exact ⟨er, rfl⟩
    · intro node obj i h hn hd he
      rw [scanX] at he ⊢
      cases hi : (h.lists node obj)[i]? with
      | none => simp
      | some dep =>
        simp only [hi] at he ⊢
        by_cases hdr : dep = root
        · exfalso
          subst hdr
          simp only [if_true] at he
          have hrep : r ∈ (replaceDepX o other dep leaf node h).1.deps dep := by
            unfold replaceDepX
            simp only
            split
            · simpa [DepHeap.deps, Function.update_of_ne hn.symm] using hd
            · simpa [replaceDep, DepHeap.deps, Function.update_of_ne hn.symm] using hd
          rcases hp : replaceDepX o other dep leaf node h with ⟨h1, _ | err⟩
          · rw [hp] at hrep
            obtain ⟨err, h2⟩ := ih.1 (h1.ver dep) 0 h1 hrep (by rw [List.drop_zero]; exact hrep)
            simp only [hp, hr, Option.isSome_none, Bool.false_eq_true, if_false] at he
            rcases hq : scanX o other dep leaf fuel dep (h1.ver dep) 0 h1 with ⟨h3, _ | er⟩
            · rw [hq] at h2; cases h2
            · rw [hq] at he; simp at he
          · rw [hp] at he; simp at he
        · simp only [hdr, if_false] at he ⊢
          by_cases hod : (other dep).isSome
          · simp [hod] at he
          · simp only [hod] at he ⊢
            rcases hq : scanX o other root leaf fuel dep (h.ver dep) 0 h with ⟨h3, _ | er⟩
            · rw [hq] at he
              have h4 := ih.2 dep (h.ver dep) 0 h hdr hd (by rw [hq])
              rw [hq] at h4
              have h4 : h3.lists root = h.lists root ∧ h3.ver root = h.ver root := h4
              have h5 := ih.2 node obj (i + 1) h3 hn
                (by show r ∈ h3.lists root (h3.ver root); rw [h4.1, h4.2]; exact hd) (by simpa using he)
              simpa using ⟨h5.1.trans h4.1, h5.2.trans h4.2⟩
            · rw [hq] at he; simp at he

/-- `define` with such an object raises, and the object is in the list of the output. -/
theorem defineOther_leaves {x : XWorld} (h : XOk x) {out : Ref} (hx : x.Arg out)
    (hk : x.w.kind out = .explicitOut) (hd : x.w.defined out = false) (b : Bool) :
    (∃ err, (xstep genv x (.defineOther out b)).2 = some err) ∧
    x.w.next ∈ (xstep genv x (.defineOther out b)).1.w.deps out ∧
    ((xstep genv x (.defineOther out b)).1.other x.w.next).isSome ∧
    (xstep genv x (.defineOther out b)).1.w.defined out = true := by
  have hox : (x.allocOther b).other x.w.next = some b := by simp [XWorld.allocOther]
  have h1 := allocOther_good h b
  have hg := xstep_good (genv := genv) h (op := .defineOther out b) hx
  have hout : (x.allocOther b).other out = none := (h1.2.other out hx.2.1).trans hx.2.2
  simp only [xstep, hk, ne_eq, not_true_eq_false, if_false, hd, Bool.false_eq_true] at hg ⊢
  have hk' : (x.allocOther b).w.kind out = .explicitOut := hk
  have hdc := h1.1.setDefined out (x.allocOther b).w.indexed
  have h2 := XGood.stays (x := x.allocOther b) (x' := { x.allocOther b with
    w := { (x.allocOther b).w with defined := Function.update (x.allocOther b).w.defined out true } })
    hdc rfl
  unfold XWorld.defineCore
  have h3 := xaddDep_good (genv := genv) h2.1 (u := out) (v := x.w.next)
    ⟨h.pos, Nat.lt_succ_self _⟩ (.inr hk)
  have h4 := xaddDep_mem (genv := genv) ({ x.allocOther b with
    w := { (x.allocOther b).w with defined := Function.update (x.allocOther b).w.defined out true } })
    out x.w.next
  have h5 : ({ x.allocOther b with
    w := { (x.allocOther b).w with defined := Function.update (x.allocOther b).w.defined out true } } :
      XWorld).w.defined out = true := by simp
  generalize ({ x.allocOther b with
    w := { (x.allocOther b).w with defined := Function.update (x.allocOther b).w.defined out true } } :
      XWorld) = y at h2 h3 h4 h5 ⊢
  have h6 := h3.2.keeps.defined out h5
  have hy : ∀ r, r < x.w.next + 1 → y.other r = (x.allocOther b).other r := fun r hr => h2.2.other r hr
  have hn : x.w.next + 1 ≤ y.w.next := h2.2.keeps.next
  have h7 : ∀ r, r < x.w.next + 1 → (y.addDep genv out x.w.next).1.other r = (x.allocOther b).other r :=
    fun r hr => (h3.2.other r (by omega)).trans (hy r hr)
  rcases hp : y.addDep genv out x.w.next with ⟨z, _ | err⟩
  · rw [hp] at h3 h4 h6 h7
    have hzo : (z.other x.w.next).isSome := by rw [h7 _ (Nat.lt_succ_self _), hox]; rfl
    have hzout : z.other out = none := (h7 out (Nat.lt_succ_of_lt hx.2.1)).trans hout
    obtain ⟨g1, g2, _⟩ := XInv.replace (genv := genv) h3.1 (root := out) (node := out) hzout hx.1.ne'
    refine ⟨?_, g1.2.other out _ hzo h4, by simpa [g2] using hzo, g1.2.defined out h6⟩
    exact (scanX_raises (o := genv.o) (leaf := z.w.next) hzout hzo genv.fuel).1 0 0
      (DepHeap.ofGraph (z.w.alloc .input (z.w.name out)).deps) h4 (by rw [List.drop_zero]; exact h4)
  · rw [hp] at h4 h6 h7
    refine ⟨⟨err, rfl⟩, h4, ?_, h6⟩
    show (z.other x.w.next).isSome
    rw [h7 _ (Nat.lt_succ_self _), hox]; rfl

theorem setItemOther_leaves {x : XWorld} {out : Ref}
    (hk : x.w.kind out = .explicitOut) (b : Bool) (er : PyErr) :
    (∃ err, (xstep genv x (.setItemOther out b er)).2 = some err) ∧
    x.w.next ∈ (xstep genv x (.setItemOther out b er)).1.w.deps out ∧
    ((xstep genv x (.setItemOther out b er)).1.other x.w.next).isSome := by
  have h4 := xaddDep_mem (genv := genv) (x.allocOther b) out x.w.next
  have h5 : ((x.allocOther b).addDep genv out x.w.next).1.other = (x.allocOther b).other := by
    unfold XWorld.addDep; split <;> rfl
  have hox : (x.allocOther b).other x.w.next = some b := by simp [XWorld.allocOther]
  simp only [xstep, hk, ne_eq, not_true_eq_false, if_false]
  rcases hp : (x.allocOther b).addDep genv out x.w.next with ⟨z, _ | err⟩
  · rw [hp] at h4 h5
    exact ⟨⟨er, rfl⟩, h4, by show (z.other _).isSome; rw [h5, hox]; rfl⟩
  · rw [hp] at h4 h5
    exact ⟨⟨err, rfl⟩, h4, by show (z.other _).isSome; rw [h5, hox]; rfl⟩

/-- **C85.** `out.define(3)` and `out[key] = 3` raise. After that, whatever is called, every setup of
the group raises. -/
theorem c85_other_breaks {x : XWorld} (h : XOk x) {out : Ref} (hx : x.Arg out)
    (hk : x.w.kind out = .explicitOut) {op : XOp}
    (hop : (∃ b, op = .defineOther out b ∧ x.w.defined out = false) ∨
      ∃ b err, op = .setItemOther out b err) :
    (∃ err, (xstep genv x op).2 = some err) ∧
    ∀ ops, XValidFrom genv (xstep genv x op).1 ops → ∀ env : SetupEnv,
      ∃ err, setupX env (xrun genv (xstep genv x op).1 ops) = .error err := by
  have hv : op.Valid x := by
    rcases hop with ⟨b, rfl, _⟩ | ⟨b, err, rfl⟩ <;> exact hx
  have hg := xstep_good (genv := genv) h hv
  have hl : (∃ err, (xstep genv x op).2 = some err) ∧
      x.w.next ∈ (xstep genv x op).1.w.deps out ∧ ((xstep genv x op).1.other x.w.next).isSome := by
    rcases hop with ⟨b, rfl, hd⟩ | ⟨b, err, rfl⟩
    · obtain ⟨h1, h2, h3, _⟩ := defineOther_leaves (genv := genv) h hx hk hd b
      exact ⟨h1, h2, h3⟩
    · exact setItemOther_leaves hk b err
  refine ⟨hl.1, fun ops hops env => ?_⟩
  have hr := xrun_good ops hg.1 hops
  refine setupX_raises (out := out) (r := x.w.next) ?_ (hr.2.keeps.other out _ hl.2.2 hl.2.1) ?_ env
  · exact hr.2.keeps.root out (hg.2.keeps.root out (h.outs out hk))
  · rw [hr.2.other _ (hg.1.others _ hl.2.2).2]; exact hl.2.2

/-- **C85.** After `out.define(3)` has raised, `out` counts as defined: every later `out.define(e)`
raises `ValueError` and changes nothing. -/
theorem c85_blocks_define {x : XWorld} (h : XOk x) {out : Ref} (hx : x.Arg out)
    (hk : x.w.kind out = .explicitOut) (b : Bool) {ops : List XOp}
    (hops : XValidFrom genv (xstep genv x (.defineOther out b)).1 ops) (e : Ref) :
    xstep genv (xrun genv (xstep genv x (.defineOther out b)).1 ops) (.api (.define out e)) =
      (xrun genv (xstep genv x (.defineOther out b)).1 ops, some .valueError) := by
  have hg := xstep_good (genv := genv) h (op := .defineOther out b) hx
  have hr := xrun_good ops hg.1 hops
  have hd : (xstep genv x (.defineOther out b)).1.w.defined out = true := by
    by_cases hd : x.w.defined out = true
    · exact hg.2.keeps.defined out hd
    · exact (defineOther_leaves (genv := genv) h hx hk (by simpa using hd) b).2.2.2
  have h1 := hr.2.keeps.defined out hd
  have h2 : (xrun genv (xstep genv x (.defineOther out b)).1 ops).w.kind out = .explicitOut := by
    rw [hr.2.keeps.kind out (hx.2.1.trans_le hg.2.keeps.next), hg.2.keeps.kind out hx.2.1, hk]
  generalize xrun genv (xstep genv x (.defineOther out b)).1 ops = y at h1 h2 ⊢
  by_cases he : e = out <;> simp [xstep, h1, h2, he]

/-! ## Without such objects the calls are those of `step` -/

theorem scanX_same {o : SetOrder Ref} {other : Ref → Option Bool} (ho : ∀ r, other r = none)
    {root leaf : Ref} (fuel : Nat) : ∀ (node obj i : Nat) (h : DepHeap),
    match replaceScan o root leaf fuel node obj i h with
    | some h' => scanX o other root leaf fuel node obj i h = (h', none)
    | none => (scanX o other root leaf fuel node obj i h).2 = some .recursionError := by
  induction fuel with
  | zero => intro node obj i h; simp [replaceScan, scanX]
  | succ fuel ih =>
    intro node obj i h
    rw [replaceScan, scanX]
    cases hd : (h.lists node obj)[i]? with
    | none => simp
    | some dep =>
      have hp : (if dep = root then replaceDepX o other root leaf node h else (h, none)) =
          ((if dep = root then replaceDep o root leaf node h else h), none) := by
        split
        · simp [replaceDepX, unhashable, ho]
        · rfl
      simp only [hp, ho, Option.isSome_none, Bool.false_eq_true, if_false]
      generalize (if dep = root then replaceDep o root leaf node h else h) = h1
      have h2 := ih dep (h1.ver dep) 0 h1
      cases hq : replaceScan o root leaf fuel dep (h1.ver dep) 0 h1 with
      | none =>
        rw [hq] at h2
        rcases hs : scanX o other root leaf fuel dep (h1.ver dep) 0 h1 with ⟨h3, _ | er⟩
        · rw [hs] at h2; cases h2
        · rw [hs] at h2; simpa using h2
      | some h3 =>
        rw [hq] at h2
        have h2 : scanX o other root leaf fuel dep (h1.ver dep) 0 h1 = (h3, none) := h2
        simp only [h2]
        exact ih node obj (i + 1) h3

/-- As long as no other object came in, a call is the call of `step`: same exception, same state (the
state after a `RecursionError` is not modelled by `step`). -/
theorem c85_same {x : XWorld} (ho : ∀ r, x.other r = none) (op : Op)
    (hr : (xstep genv x (.api op)).2 ≠ some .recursionError) :
    xstep genv x (.api op) = ({ x with w := (step genv x.w op).1 }, (step genv x.w op).2) := by
  have hadd : ∀ (y : XWorld), y.other = x.other → ∀ u v,
      y.addDep genv u v = ({ y with w := y.w.addDep genv u v }, none) := fun y hy u v => by
    simp [XWorld.addDep, unhashable, hy, ho]
  cases op with
  | define out e =>
    simp only [xstep, step] at hr ⊢
    split
    · rfl
    · split
      · rfl
      · split
        · rfl
        · rename_i h1 h2 h3
          simp only [h1, h2, h3, if_false] at hr
          simp only [XWorld.defineCore,
            hadd { x with w := { x.w with defined := Function.update x.w.defined out true } } rfl] at hr ⊢
          simp only [XWorld.replace] at hr ⊢
          have hs := scanX_same (o := genv.o) ho (root := out) (leaf := x.w.next) genv.fuel out 0 0
            (DepHeap.ofGraph (OM.addDep genv.o x.w.deps out e))
          simp only [World.addDep, World.alloc, replaceLeafNodes] at hr hs ⊢
          cases hq : replaceScan genv.o out x.w.next genv.fuel out 0 0
              (DepHeap.ofGraph (OM.addDep genv.o x.w.deps out e)) with
          | none => rw [hq] at hs; exact absurd hs hr
          | some h' =>
            rw [hq] at hs
            have hs : scanX genv.o x.other out x.w.next genv.fuel out 0 0
              (DepHeap.ofGraph (OM.addDep genv.o x.w.deps out e)) = (h', none) := hs
            simp [hs]
  | setItem out e check =>
    simp only [xstep, step]
    split
    · rfl
    · rw [hadd x rfl]
      cases check <;> rfl
  | defineResidual out e =>
    simp only [xstep, step] at hr ⊢
    split
    · rfl
    · split
      · rfl
      · split
        · rfl
        · rename_i h1 h2 h3
          simp only [h1, h2, h3, if_false] at hr
          simp only [XWorld.replace] at hr ⊢
          have hs := scanX_same (o := genv.o) ho (root := out) (leaf := x.w.next) genv.fuel e 0 0
            (DepHeap.ofGraph x.w.deps)
          simp only [World.alloc, replaceLeafNodes] at hr hs ⊢
          cases hq : replaceScan genv.o out x.w.next genv.fuel e 0 0 (DepHeap.ofGraph x.w.deps) with
          | none =>
            rw [hq] at hs
            rcases hp : scanX genv.o x.other out x.w.next genv.fuel e 0 0 (DepHeap.ofGraph x.w.deps)
              with ⟨h', _ | er⟩
            · rw [hp] at hs; cases hs
            · rw [hp] at hs hr
              have hs : some er = some PyErr.recursionError := hs
              exact absurd (by simpa using hs) (by simpa using hr)
          | some h' =>
            rw [hq] at hs
            have hs : scanX genv.o x.other out x.w.next genv.fuel e 0 0
              (DepHeap.ofGraph x.w.deps) = (h', none) := hs
            simp only [hs, Option.map_some]
            generalize World.register genv _ _ _ = q
            obtain ⟨w2, _ | er⟩ := q <;> rfl
  | _ => rfl

/-- … and the setup is that of the group. -/
theorem c85_setup_same {x : XWorld} (ho : ∀ r, x.other r = none) (env : SetupEnv) :
    setupX env x = match setupGroup env x.w with
      | .error e => .error e.py
      | .ok comps => .ok comps := by
  have hreg : ∀ limit u nodes, registerNodesX x.other x.w.deps limit u nodes =
      match registerNodes x.w.deps limit u nodes with
      | none => .error .recursionError
      | some ns => .ok ns := by
    intro limit
    induction limit with
    | zero => intro u nodes; rfl
    | succ limit ih =>
      intro u nodes
      rw [registerNodesX, registerNodes]
      generalize x.w.deps u = l
      induction l generalizing nodes with
      | nil => rfl
      | cons a l ihl =>
        rw [List.foldlM_cons, List.foldlM_cons]
        simp only [ho, Option.isSome_none, Bool.false_eq_true, if_false] at ihl ⊢
        by_cases hm : a ∈ nodes
        · simp only [hm, if_true]; exact ihl nodes
        · simp only [hm, if_false]
          rw [ih a (nodes ++ [a])]
          cases registerNodes x.w.deps limit a (nodes ++ [a]) with
          | none => rfl
          | some n1 => exact ihl n1
  unfold setupX
  rw [hreg]
  cases hq : registerNodes x.w.deps env.limit 0 [] with
  | some ns => rfl
  | none =>
    have : setupGroup env x.w = .error .recursionError := by
      simp [setupGroup, sortExpressions, GState.fresh, hq]
    rw [this]; rfl

/-! ## Refused calls with expressions -/

/-- **C85.** An indexed assignment that is refused leaves the dependency behind: whatever is called
afterwards, the component of the expression is built, though nothing was assigned. -/
theorem c85_assignment_stays {env : SetupEnv} {ops1 ops2 : List Op} {out e : Ref} {err : PyErr}
    (h : GroupOk genv env (ops1 ++ .setItem out e (some err) :: ops2))
    (hk : (final genv ops1).kind out = .explicitOut) (hke : (final genv ops1).kind e = .expr)
    {comps : List Ref}
    (hc : setupGroup env (final genv (ops1 ++ .setItem out e (some err) :: ops2)) = .ok comps) :
    (step genv (final genv ops1) (.setItem out e (some err))).2 = some err ∧ e ∈ comps := by
  refine ⟨by simp [step, hk], ?_⟩
  have hval := h.valid
  have hsafe := h.safe
  rw [validFrom_append] at hval
  rw [safeFrom_append] at hsafe
  have ok1 := run_ok ops1 (worldOk_init genv) hval.1
  have ac1 := run_acyclic ops1 (worldOk_init genv) (acyclic_init genv) hval.1 hsafe.1
  have ou1 := run_outs ops1 (worldOk_init genv) (outs_init genv) hval.1
  have ok2 := step_ok (env := genv) ok1 hval.2.1
  have ac2 := step_acyclic (env := genv) ok1 ac1 hval.2.1 hsafe.2.1
  have hv2 := hval.2.1
  have hst : (step genv (final genv ops1) (.setItem out e (some err))).1 =
      (final genv ops1).addDep genv out e := by simp [step, hk]
  rw [hst] at ok2 ac2
  have hv3 : ValidFrom genv ((final genv ops1).addDep genv out e) ops2 := hst ▸ hval.2.2
  have hs3 : SafeFrom genv ((final genv ops1).addDep genv out e) ops2 := hst ▸ hsafe.2.2
  have hfin : final genv (ops1 ++ .setItem out e (some err) :: ops2) =
      run genv ((final genv ops1).addDep genv out e) ops2 := by
    unfold final
    rw [run_append, run_cons, hst]
  have hcut := noCutFrom_of_kind (u := out) (v := e) ops2 ok2 hv3 hv2.2.2
    (by rw [show ((final genv ops1).addDep genv out e).kind e = .expr from hke]; decide)
    (by rw [show ((final genv ops1).addDep genv out e).kind e = .expr from hke]; decide)
  have hedge := run_keeps_edge ops2 ok2 ac2 hv3 hs3 hcut
    ((mem_addDep genv.o (final genv ops1).deps out e out e).2 (.inr ⟨rfl, rfl⟩))
  have hroot := run_root ops2 ok2 hv3 out
    ((mem_addDep genv.o (final genv ops1).deps out e 0 out).2 (.inl (ou1 out hv2.1.1 hv2.1.2 hk)))
  have hkind := run_kind ops2 ok2 hv3 e hv2.2.2
  rw [((comps_iff h hc).2 e), hfin]
  refine ⟨.tail (.single hroot) hedge, ?_⟩
  simp only [World.built]
  rw [hkind, show ((final genv ops1).addDep genv out e).kind e = .expr from hke]
  decide

/-- **C85.** A residual that is refused because it is registered already no longer depends on the
unknown: whatever it read from the unknown it reads from an input of the same name. (`NothingSkipped`: the
loop over a list that is changed meanwhile passes over nothing that depends on the unknown.) -/
theorem c85_residual_cut {w : World} (ok : WorldOk w) (hac : AcyclicG w.deps) {out e : Ref}
    (hk : w.kind out = .implicitOut) (hne : e ≠ out) (hd : w.defined out = false)
    (hv : (Op.defineResidual out e).Valid w) (hreg : e ∈ w.deps 0) (hke : w.kind e ≠ .input)
    (hsk : NothingSkipped out w.deps e)
    (hr : (step genv w (.defineResidual out e)).2 ≠ some .recursionError) :
    (step genv w (.defineResidual out e)).2 = some .valueError ∧
    (step genv w (.defineResidual out e)).1.defined out = false ∧
    ¬ Needs (step genv w (.defineResidual out e)).1.deps e out := by
  have hroot0 : (0 : Ref) ≠ e := hv.2.1.ne
  have hlt : out < w.next := hv.1.2
  simp only [step, hk, hne, hd, ne_eq, not_true_eq_false, if_false, Bool.false_eq_true] at hr ⊢
  cases hq : replaceLeafNodes genv.o genv.fuel out e w.next (w.alloc .input (w.name out)).deps with
  | none => simp [hq] at hr
  | some g =>
    have hfin : ∃ univ : List Ref, ∀ u, out ∈ w.deps u → u ∈ univ := ⟨List.range w.next, fun u hu => by
      by_contra hc
      rw [ok.fresh u (by simpa using hc)] at hu
      simp at hu⟩
    have hclean := replaceLeafNodes_all (o := genv.o) (root := out) (leaf := w.next)
      (show w.next ≠ out by omega) ok.nodup
      (ok.fresh _ le_rfl) hfin hac hsk hq
    have hreg' : e ∈ g 0 := by
      have hsp := (replaceLeafNodes_spec (show w.next ≠ out by omega) ok.nodup (ok.fresh _ le_rfl) hfin
        hq).2.2.2.2 (fun u => u ≠ 0) hv.1.1.ne' ok.pos.ne' hv.2.1.ne'
        (fun u _ y hy => (ok.range u y hy).1.ne') 0 (by simp)
      rw [hsp]; exact hreg
    have hkk : (w.alloc .input (w.name out)).kind e ≠ .input := by
      simpa [World.alloc, Function.update_of_ne (show e ≠ w.next from hv.2.2.ne)] using hke
    simp only [World.register, hkk, hreg', if_false, if_true]
    refine ⟨trivial, hd, ?_⟩
    intro hn
    obtain ⟨c, h1, h2⟩ := Relation.TransGen.tail'_iff.1 hn
    exact hclean c h1 h2

/-! ## Examples -/

theorem reach_lt {g : Graph} {n a b : Nat} (h : ∀ u < n, 0 < u → ∀ v ∈ g u, 0 < v ∧ v < n)
    (ha : 0 < a ∧ a < n) (hr : Reach g a b) : 0 < b ∧ b < n := by
  induction hr with
  | refl => exact ha
  | tail _ hbc ih => exact h _ ih.2 ih.1 _ hbc

/-- `y = group.create_output('y'); a = group.declare_input('a')`. -/
abbrev refusedStart : List XOp := [.api (.createOutput "y"), .api (.declareInput "a")]

theorem refusedStart_ok : XOk (xrun demoGEnv (XWorld.init demoGEnv) refusedStart) :=
  (xrun_good refusedStart (xok_init demoGEnv) ⟨trivial, trivial, trivial⟩).1

/-- `y.define(3)`, then `y.define(a)`: the setup raises. -/
example : ∃ err, setupX demoEnv (xrun demoGEnv
    (xstep demoGEnv (xrun demoGEnv (XWorld.init demoGEnv) refusedStart) (.defineOther 1 true)).1
    [.api (.define 1 2)]) = .error err :=
  (c85_other_breaks (genv := demoGEnv) refusedStart_ok (out := 1) ⟨by decide, by decide, by decide⟩ (by decide)
    (op := .defineOther 1 true) (.inl ⟨true, rfl, by decide⟩)).2 [.api (.define 1 2)]
    ⟨⟨⟨by decide, by decide, by decide⟩, by decide, by decide, by decide⟩, trivial⟩ demoEnv

/-- `y[0] = [3]`, then `y.define(a)`: `define` raises `TypeError`, and the setup raises. -/
example : (xstep demoGEnv (xstep demoGEnv (xrun demoGEnv (XWorld.init demoGEnv) refusedStart)
      (.setItemOther 1 false .attributeError)).1 (.api (.define 1 2))).2 = some .typeError ∧
    ∃ err, setupX demoEnv (xrun demoGEnv (xstep demoGEnv
      (xrun demoGEnv (XWorld.init demoGEnv) refusedStart) (.setItemOther 1 false .attributeError)).1
      [.api (.define 1 2)]) = .error err :=
  ⟨by decide, (c85_other_breaks (genv := demoGEnv) refusedStart_ok (out := 1)
    ⟨by decide, by decide, by decide⟩ (by decide) (op := .setItemOther 1 false .attributeError)
    (.inr ⟨false, _, rfl⟩)).2 [.api (.define 1 2)]
    ⟨⟨⟨by decide, by decide, by decide⟩, by decide, by decide, by decide⟩, trivial⟩ demoEnv⟩

/-- Without the first call the setup succeeds. -/
example : setupX demoEnv (xrun demoGEnv (xrun demoGEnv (XWorld.init demoGEnv) refusedStart)
    [.api (.define 1 2)]) = .ok [1] := by decide

/-- Registering the input is refused and changes nothing. -/
example : (xstep demoGEnv (xrun demoGEnv (XWorld.init demoGEnv) refusedStart)
    (.api (.registerOutput "z" 2))).1 = xrun demoGEnv (XWorld.init demoGEnv) refusedStart :=
  c85_unchanged_partial refusedStart_ok (err := .typeError) (by decide) (by simp) (by simp) (by simp)
    (by simp) (by simp)

/-- `y[0:2] = e` is refused, `y[0:3] = f` is not: the component of `e` is built, and would not be
without the first assignment. -/
example : 2 ∈ [1, 2, 3, 4] ∧
    setupGroup demoEnv (final demoGEnv [.createIndep "a", .combine [1], .combine [1], .createOutput "y",
      .setItem 4 3 none]) = .ok [1, 3, 4] := by
  refine ⟨(c85_assignment_stays (genv := demoGEnv) (env := demoEnv)
    (ops1 := [.createIndep "a", .combine [1], .combine [1], .createOutput "y"])
    (ops2 := [.setItem 4 3 none]) (out := 4) (e := 2) (err := .valueError) ?_ (by decide) (by decide)
    (by decide)).2, by decide⟩
  exact groupOk_of_check (by decide)
    ⟨trivial, trivial, trivial, trivial, fun h => absurd (reach_lt (n := 4) (by decide) (by decide) h) (by decide),
      fun h => absurd (reach_lt (n := 4) (by decide) (by decide) h) (by decide), trivial⟩ (by decide) 8 pyOrder_ascending (by decide)

/-- `r = f(x)` is registered, then used as the residual of `x`: refused, and `r` does not depend on `x`
any more. -/
example : ¬ Needs (step demoGEnv (final demoGEnv [.createImplicit "x", .combine [1], .registerOutput "r" 2])
    (.defineResidual 1 2)).1.deps 2 1 ∧
    Needs (final demoGEnv [.createImplicit "x", .combine [1], .registerOutput "r" 2]).deps 2 1 := by
  refine ⟨(c85_residual_cut (genv := demoGEnv) (run_ok _ (worldOk_init demoGEnv) (by decide))
    (run_acyclic [.createImplicit "x", .combine [1], .registerOutput "r" 2] (worldOk_init demoGEnv) (acyclic_init demoGEnv)
      (by decide) ⟨trivial, trivial, trivial, trivial⟩) (by decide)
    (by decide) (by decide) (by decide) (by decide) (by decide) ?_ (by decide)).2.2, .single (show 1 ∈ _ by decide)⟩
  intro u hu pre y post h
  have h1 := reach_lt (n := 3) (by decide) (by decide) hu
  have h2 : ∀ u < 3, ((run demoGEnv (World.init demoGEnv)
    [.createImplicit "x", .combine [1], .registerOutput "r" 2]).deps u).length ≤ 1 := by decide
  have h3 := h2 u h1.2
  rw [h] at h3
  simp at h3
  omega

end OM

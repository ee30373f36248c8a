import Verif.Model.Refused
import Verif.Lemmas.Group
import Verif.Lemmas.Replace

/-! # Invariants of histories in which calls are refused -/

namespace OM

/-- What holds after any calls. -/
structure XInv (other : Ref → Option Bool) (w : World) : Prop where
  pos : 0 < w.next
  range : ∀ u v, v ∈ w.deps u → 0 < v ∧ v < w.next
  recent : ∀ s, w.recent = some s → 0 < s ∧ s < w.next ∧ other s = none
  decomp : ∀ a d, w.decomp a = some d → 0 < d ∧ d < w.next ∧ other d = none
  others : ∀ r, (other r).isSome → 0 < r ∧ r < w.next
  root : w.kind 0 = .root
  fresh : ∀ u, w.next ≤ u → w.kind u ≠ .explicitOut
  /-- created outputs are registered -/
  outs : ∀ u, w.kind u = .explicitOut → u ∈ w.deps 0
  /-- objects that are not expressions are only in the lists of created outputs -/
  places : ∀ u r, (other r).isSome → r ∈ w.deps u → w.kind u = .explicitOut

/-- What calls keep. -/
structure XKeeps (other : Ref → Option Bool) (w w' : World) : Prop where
  next : w.next ≤ w'.next
  kind : ∀ u, u < w.next → w'.kind u = w.kind u
  other : ∀ u r, (other r).isSome → r ∈ w.deps u → r ∈ w'.deps u
  root : ∀ v ∈ w.deps 0, v ∈ w'.deps 0
  defined : ∀ u, w.defined u = true → w'.defined u = true

theorem XKeeps.refl (other : Ref → Option Bool) (w : World) : XKeeps other w w :=
  ⟨le_rfl, fun _ _ => rfl, fun _ _ _ h => h, fun _ h => h, fun _ h => h⟩

theorem XKeeps.trans {other : Ref → Option Bool} {a b c : World} (h1 : XKeeps other a b)
    (h2 : XKeeps other b c) : XKeeps other a c :=
  ⟨h1.next.trans h2.next, fun u hu => (h2.kind u (hu.trans_le h1.next)).trans (h1.kind u hu),
    fun u r hr hm => h2.other u r hr (h1.other u r hr hm), fun v hv => h2.root v (h1.root v hv),
    fun u hu => h2.defined u (h1.defined u hu)⟩

/-- Both. -/
def XGood (other : Ref → Option Bool) (w w' : World) : Prop := XInv other w' ∧ XKeeps other w w'

theorem XGood.trans {other : Ref → Option Bool} {a b c : World} (h1 : XGood other a b)
    (h2 : XGood other b c) : XGood other a c := ⟨h2.1, h1.2.trans h2.2⟩

variable {other : Ref → Option Bool} {w : World} {genv : GEnv}

theorem XInv.good (h : XInv other w) : XGood other w w := ⟨h, XKeeps.refl _ _⟩

theorem XInv.other_next (h : XInv other w) : other w.next = none := by
  cases ho : other w.next with
  | none => rfl
  | some b => exact absurd (h.others w.next (by simp [ho])).2 (lt_irrefl _)

theorem XInv.alloc (h : XInv other w) (k : Kind) (nm : String) (hk : k ≠ .explicitOut) :
    XGood other w (w.alloc k nm) := by
  refine ⟨⟨Nat.succ_pos _, ?_, ?_, ?_, ?_, ?_, ?_, ?_, ?_⟩, ⟨Nat.le_succ _, ?_, fun _ _ _ h => h,
    fun _ h => h, fun _ h => h⟩⟩
  · intro u v hv
    exact ⟨(h.range u v hv).1, Nat.lt_succ_of_lt (h.range u v hv).2⟩
  · intro s hs
    obtain ⟨h1, h2, h3⟩ := h.recent s hs
    exact ⟨h1, Nat.lt_succ_of_lt h2, h3⟩
  · intro a d hd
    obtain ⟨h1, h2, h3⟩ := h.decomp a d hd
    exact ⟨h1, Nat.lt_succ_of_lt h2, h3⟩
  · intro r hr
    exact ⟨(h.others r hr).1, Nat.lt_succ_of_lt (h.others r hr).2⟩
  · simpa [World.alloc, Function.update_of_ne (show 0 ≠ w.next from h.pos.ne)] using h.root
  · intro u hu
    have hu' : w.next + 1 ≤ u := hu
    simpa [World.alloc, Function.update_of_ne (show u ≠ w.next by omega)] using h.fresh u (by omega)
  · intro u hu
    by_cases he : u = w.next
    · subst he; simp [World.alloc] at hu; exact absurd hu hk
    · simp only [World.alloc, Function.update_of_ne he] at hu
      exact h.outs u hu
  · intro u r hr hm
    have h1 := h.places u r hr hm
    have he : u ≠ w.next := by rintro rfl; exact h.fresh _ le_rfl h1
    simpa [World.alloc, Function.update_of_ne he] using h1
  · intro u hu
    simp [World.alloc, Function.update_of_ne (show u ≠ w.next by omega)]

/-- The lists only grow, at one object. -/
theorem XInv.deps (h : XInv other w) (u v : Ref) (g : Graph)
    (hg : ∀ a b, b ∈ g a ↔ b ∈ w.deps a ∨ (a = u ∧ b = v)) (hv : 0 < v ∧ v < w.next)
    (ho : other v = none ∨ w.kind u = .explicitOut) : XGood other w { w with deps := g } := by
  refine ⟨⟨h.pos, ?_, h.recent, h.decomp, h.others, h.root, h.fresh, ?_, ?_⟩,
    ⟨le_rfl, fun _ _ => rfl, ?_, ?_, fun _ h => h⟩⟩
  · intro a b hb
    rcases (hg a b).1 hb with hb | ⟨_, rfl⟩
    · exact h.range a b hb
    · exact hv
  · intro a ha; exact (hg 0 a).2 (.inl (h.outs a ha))
  · intro a r hr hm
    rcases (hg a r).1 hm with hm | ⟨rfl, rfl⟩
    · exact h.places a r hr hm
    · rcases ho with ho | ho
      · simp [ho] at hr
      · exact ho
  · intro a r _ hm; exact (hg a r).2 (.inl hm)
  · intro a hm; exact (hg 0 a).2 (.inl hm)

theorem XInv.addDep (h : XInv other w) {u v : Ref} (hv : 0 < v ∧ v < w.next)
    (ho : other v = none ∨ w.kind u = .explicitOut) : XGood other w (w.addDep genv u v) :=
  h.deps u v _ (fun a b => mem_addDep genv.o w.deps u v a b) hv ho

theorem XInv.addDeps {u : Ref} (ds : List Ref) : ∀ {w : World}, XInv other w →
    (∀ d ∈ ds, (0 < d ∧ d < w.next) ∧ other d = none) →
    XGood other w (ds.foldl (fun w' d => w'.addDep genv u d) w) ∧
      (ds.foldl (fun w' d => w'.addDep genv u d) w).next = w.next := by
  induction ds with
  | nil => intro w h _; exact ⟨h.good, rfl⟩
  | cons d ds ih =>
    intro w h hds
    have h1 := h.addDep (genv := genv) (u := u) (hds d (by simp)).1 (.inl (hds d (by simp)).2)
    have h2 := ih (w := w.addDep genv u d) h1.1 (fun x hx => hds x (List.mem_cons_of_mem _ hx))
    exact ⟨h1.trans h2.1, h2.2⟩

theorem XInv.setName (h : XInv other w) (f : Ref → String) : XGood other w { w with name := f } :=
  ⟨⟨h.pos, h.range, h.recent, h.decomp, h.others, h.root, h.fresh, h.outs, h.places⟩,
    ⟨le_rfl, fun _ _ => rfl, fun _ _ _ h => h, fun _ h => h, fun _ h => h⟩⟩

theorem XInv.setDefined (h : XInv other w) (u : Ref) (i : Ref → Bool) :
    XGood other w { w with indexed := i, defined := Function.update w.defined u true } :=
  ⟨⟨h.pos, h.range, h.recent, h.decomp, h.others, h.root, h.fresh, h.outs, h.places⟩,
    ⟨le_rfl, fun _ _ => rfl, fun _ _ _ h => h, fun _ h => h, fun a ha => by
      by_cases he : a = u
      · subst he; simp
      · simpa [Function.update_of_ne he] using ha⟩⟩

theorem XInv.register (h : XInv other w) {nm : String} {a : Ref} (ha : 0 < a ∧ a < w.next)
    (ho : other a = none) : XGood other w (w.register genv nm a).1 := by
  unfold World.register
  split
  · exact h.good
  · split
    · exact h.good
    · have h1 := h.setName (Function.update w.name a nm)
      exact h1.trans (h1.1.addDep ha (.inl ho))

theorem XInv.setRecent (h : XInv other w) {s : Ref} (hs : 0 < s ∧ s < w.next) (ho : other s = none) :
    XGood other w { w with recent := some s } :=
  ⟨⟨h.pos, h.range, by rintro _ ⟨⟩; exact ⟨hs.1, hs.2, ho⟩, h.decomp, h.others, h.root, h.fresh, h.outs,
    h.places⟩, ⟨le_rfl, fun _ _ => rfl, fun _ _ _ h => h, fun _ h => h, fun _ h => h⟩⟩

theorem XInv.setDecomp (h : XInv other w) {a d : Ref} (hd : 0 < d ∧ d < w.next) (ho : other d = none) :
    XGood other w { w with decomp := Function.update w.decomp a (some d) } := by
  refine ⟨⟨h.pos, h.range, h.recent, ?_, h.others, h.root, h.fresh, h.outs,
    h.places⟩, ⟨le_rfl, fun _ _ => rfl, fun _ _ _ h => h, fun _ h => h, fun _ h => h⟩⟩
  intro b c hc
  by_cases he : b = a
  · subst he
    simp only [Function.update_self, Option.some.injEq] at hc
    subst hc
    exact ⟨hd.1, hd.2, ho⟩
  · simp only [Function.update_of_ne he] at hc
    exact h.decomp b c hc

/-- The calls without objects that are not expressions. -/
theorem XInv.step (h : XInv other w) (op : Op)
    (h1 : ∀ args, op = .combine args → ∀ a ∈ args, 0 < a ∧ a < w.next ∧ other a = none)
    (h2 : ∀ a, op = .getItem a → 0 < a ∧ a < w.next ∧ other a = none)
    (h3 : ∀ nm a, op = .registerOutput nm a → 0 < a ∧ a < w.next ∧ other a = none)
    (h4 : ∀ a e, op ≠ .define a e) (h5 : ∀ a e c, op ≠ .setItem a e c)
    (h6 : ∀ a e, op ≠ .defineResidual a e) : XGood other w (OM.step genv w op).1 := by
  have hn := h.other_next
  cases op with
  | declareInput nm =>
    simp only [OM.step]
    have a1 := h.alloc .input nm (by decide)
    cases hr : w.recent with
    | none => exact a1
    | some s =>
      obtain ⟨p1, p2, p3⟩ := h.recent s hr
      exact a1.trans (a1.1.addDep ⟨p1, Nat.lt_succ_of_lt p2⟩ (.inl p3))
  | createIndep nm =>
    simp only [OM.step]
    have a1 := h.alloc .indep nm (by decide)
    cases hr : w.recent with
    | none => exact a1.trans (a1.1.register ⟨h.pos, Nat.lt_succ_self _⟩ hn)
    | some s =>
      have a2 := a1.1.addDep (genv := genv) (u := s) (v := w.next) ⟨h.pos, Nat.lt_succ_self _⟩ (.inl hn)
      exact a1.trans (a2.trans (a2.1.register ⟨h.pos, Nat.lt_succ_self _⟩ hn))
  | createOutput nm =>
    simp only [OM.step]
    have hm : ∀ a b, b ∈ OM.addDep genv.o w.deps 0 w.next a ↔ b ∈ w.deps a ∨ (a = 0 ∧ b = w.next) :=
      fun a b => mem_addDep genv.o w.deps 0 w.next a b
    have hk : ∀ u, u ≠ w.next → (w.alloc .explicitOut nm).kind u = w.kind u := fun u hu => by
      simp [World.alloc, Function.update_of_ne hu]
    refine ⟨⟨Nat.succ_pos _, ?_, ?_, ?_, ?_, ?_, ?_, ?_, ?_⟩,
      ⟨Nat.le_succ _, fun u hu => hk u hu.ne, fun a r _ hr => (hm a r).2 (.inl hr),
        fun a ha => (hm 0 a).2 (.inl ha), fun _ h => h⟩⟩
    · intro a b hb
      rcases (hm a b).1 hb with hb | ⟨_, rfl⟩
      · exact ⟨(h.range a b hb).1, Nat.lt_succ_of_lt (h.range a b hb).2⟩
      · exact ⟨h.pos, Nat.lt_succ_self _⟩
    · intro s hs
      obtain ⟨h1, h2, h3⟩ := h.recent s hs
      exact ⟨h1, Nat.lt_succ_of_lt h2, h3⟩
    · intro a d hd
      obtain ⟨h1, h2, h3⟩ := h.decomp a d hd
      exact ⟨h1, Nat.lt_succ_of_lt h2, h3⟩
    · intro r hr
      exact ⟨(h.others r hr).1, Nat.lt_succ_of_lt (h.others r hr).2⟩
    · exact (hk 0 h.pos.ne).trans h.root
    · intro u hu
      have hu' : w.next + 1 ≤ u := hu
      intro hc
      exact h.fresh u (by omega) ((hk u (by omega)).symm.trans hc)
    · intro u hu
      by_cases he : u = w.next
      · exact (hm 0 u).2 (.inr ⟨rfl, he⟩)
      · exact (hm 0 u).2 (.inl (h.outs u ((hk u he).symm.trans hu)))
    · intro u r hr hm'
      rcases (hm u r).1 hm' with h7 | ⟨_, rfl⟩
      · have h8 := h.places u r hr h7
        exact (hk u (by rintro rfl; exact h.fresh _ le_rfl h8)).trans h8
      · simp [hn] at hr
  | createImplicit nm => exact h.alloc .implicitOut nm (by decide)
  | combine args =>
    simp only [OM.step]
    have a1 := h.alloc .expr (genv.autoName w.next) (by decide)
    exact a1.trans (XInv.addDeps args a1.1 fun d hd =>
      ⟨⟨(h1 args rfl d hd).1, Nat.lt_succ_of_lt (h1 args rfl d hd).2.1⟩, (h1 args rfl d hd).2.2⟩).1
  | getItem a =>
    obtain ⟨p1, p2, p3⟩ := h2 a rfl
    simp only [OM.step]
    cases hd : w.decomp a with
    | some d =>
      simp only [hd]
      have a1 := h.alloc .item (genv.autoName w.next) (by decide)
      obtain ⟨q1, q2, q3⟩ := h.decomp a d hd
      exact a1.trans (a1.1.addDep ⟨q1, Nat.lt_succ_of_lt q2⟩ (.inl q3))
    | none =>
      simp only [Function.update_self]
      have a1 := h.alloc .decomp ("decompose_" ++ w.name a) (by decide)
      have a2 := a1.1.addDep (genv := genv) (u := w.next) (v := a) ⟨p1, Nat.lt_succ_of_lt p2⟩ (.inl p3)
      have a3 := a2.trans (a2.1.setDecomp (a := a) (d := w.next) ⟨h.pos, Nat.lt_succ_self _⟩ hn)
      have a4 := a1.trans a3
      have a5 := a4.trans (a4.1.alloc .item (genv.autoName (w.next + 1)) (by decide))
      refine a5.trans (a5.1.addDep ⟨h.pos, ?_⟩ (.inl hn))
      exact Nat.lt_succ_of_lt (Nat.lt_succ_self _)
  | registerOutput nm a =>
    obtain ⟨p1, p2, p3⟩ := h3 nm a rfl
    exact h.register ⟨p1, p2⟩ p3
  | addSubsystem nm =>
    simp only [OM.step]
    have a1 := h.alloc .subsystem nm (by decide)
    have hds : ∀ d ∈ w.deps 0, (0 < d ∧ d < (w.alloc .subsystem nm).next) ∧ other d = none := by
      intro d hd
      refine ⟨⟨(h.range 0 d hd).1, Nat.lt_succ_of_lt (h.range 0 d hd).2⟩, ?_⟩
      cases ho : other d with
      | none => rfl
      | some b =>
        have := h.places 0 d (by simp [ho]) hd
        rw [h.root] at this; cases this
    obtain ⟨a2, e2⟩ := XInv.addDeps (genv := genv) (u := w.next) (w.deps 0) a1.1 hds
    have hl : w.next < ((w.deps 0).foldl (fun w' d => w'.addDep genv w.next d)
        (w.alloc .subsystem nm)).next := by rw [e2]; exact Nat.lt_succ_self _
    have a3 := (a1.trans a2).trans (a2.1.addDep (genv := genv) (u := 0) (v := w.next) ⟨h.pos, hl⟩ (.inl hn))
    exact a3.trans (a3.1.setRecent ⟨h.pos, hl⟩ hn)
  | define a e => exact absurd rfl (h4 a e)
  | setItem a e c => exact absurd rfl (h5 a e c)
  | defineResidual a e => exact absurd rfl (h6 a e)

/-! ## The search for the output -/

/-- What the lists hold while `replace_output_leaf_nodes` runs. -/
structure HInv (other : Ref → Option Bool) (w : World) (h : DepHeap) : Prop where
  range : ∀ u k v, v ∈ h.lists u k → 0 < v ∧ v < w.next
  places : ∀ u k r, (other r).isSome → r ∈ h.lists u k → w.kind u = .explicitOut

structure HKeeps (other : Ref → Option Bool) (h h' : DepHeap) : Prop where
  root : h'.deps 0 = h.deps 0
  other : ∀ u r, (other r).isSome → r ∈ h.deps u → r ∈ h'.deps u

theorem HKeeps.refl (other : Ref → Option Bool) (h : DepHeap) : HKeeps other h h :=
  ⟨rfl, fun _ _ _ h => h⟩

theorem HKeeps.trans {a b c : DepHeap} (h1 : HKeeps other a b) (h2 : HKeeps other b c) :
    HKeeps other a c :=
  ⟨h2.root.trans h1.root, fun u r hr hm => h2.other u r hr (h1.other u r hr hm)⟩

theorem mem_removed {l : List Ref} {root leaf a : Ref}
    (h : a ∈ removeDepNode l root ++ [leaf]) : a ∈ l ∨ a = leaf := by
  rw [removeDepNode_eq_erase] at h
  rcases List.mem_append.1 h with h | h
  · exact .inl (List.mem_of_mem_erase h)
  · exact .inr (List.mem_singleton.1 h)

theorem mem_kept {l : List Ref} {root leaf a : Ref} (h : a ∈ l) (hne : a ≠ root) :
    a ∈ removeDepNode l root ++ [leaf] := by
  rw [removeDepNode_eq_erase]
  exact List.mem_append_left _ ((List.mem_erase_of_ne hne).2 h)

theorem replaceDepX_good {o : SetOrder Ref} {root leaf node : Ref} {h : DepHeap}
    (hi : HInv other w h) (hl : 0 < leaf ∧ leaf < w.next) (ho : other leaf = none)
    (hr : other root = none) (hn : node ≠ 0) :
    HInv other w (replaceDepX o other root leaf node h).1 ∧
      HKeeps other h (replaceDepX o other root leaf node h).1 := by
  have hmem : ∀ a, a ∈ removeDepNode (h.deps node) root ++ [leaf] →
      (0 < a ∧ a < w.next) ∧ ((other a).isSome → w.kind node = .explicitOut) := by
    intro a ha
    rcases mem_removed ha with ha | rfl
    · exact ⟨hi.range _ _ _ ha, fun hs => hi.places _ _ _ hs ha⟩
    · exact ⟨hl, fun hs => by simp [ho] at hs⟩
  have hkeep : ∀ r, (other r).isSome → r ∈ h.deps node →
      r ∈ removeDepNode (h.deps node) root ++ [leaf] := fun r hs hm =>
    mem_kept hm (by rintro rfl; simp [hr] at hs)
  unfold replaceDepX
  simp only
  split
  · have hlists : ∀ u k a, a ∈ (Function.update h.lists node (Function.update (h.lists node)
        (h.ver node) (removeDepNode (h.deps node) root ++ [leaf]))) u k →
        a ∈ h.lists u k ∨ (u = node ∧ a ∈ removeDepNode (h.deps node) root ++ [leaf]) := by
      intro u k a ha
      by_cases hu : u = node
      · subst hu
        rw [Function.update_self] at ha
        by_cases hk : k = h.ver u
        · subst hk; rw [Function.update_self] at ha; exact .inr ⟨rfl, ha⟩
        · rw [Function.update_of_ne hk] at ha; exact .inl ha
      · rw [Function.update_of_ne hu] at ha; exact .inl ha
    refine ⟨⟨?_, ?_⟩, ⟨?_, ?_⟩⟩
    · intro u k v hv
      rcases hlists u k v hv with hv | ⟨_, hv⟩
      · exact hi.range u k v hv
      · exact (hmem v hv).1
    · intro u k r hs hv
      rcases hlists u k r hv with hv | ⟨rfl, hv⟩
      · exact hi.places u k r hs hv
      · exact (hmem r hv).2 hs
    · simp [DepHeap.deps, Function.update_of_ne hn.symm]
    · intro u r hs hm
      by_cases hu : u = node
      · subst hu
        simpa [DepHeap.deps] using hkeep r hs hm
      · simpa [DepHeap.deps, Function.update_of_ne hu] using hm
  · have hlists : ∀ u k a, a ∈ (replaceDep o root leaf node h).lists u k →
        a ∈ h.lists u k ∨ (u = node ∧ a ∈ removeDepNode (h.deps node) root ++ [leaf]) := by
      intro u k a ha
      simp only [replaceDep] at ha
      by_cases hu : u = node
      · subst hu
        rw [Function.update_self] at ha
        by_cases hk : k = h.ver u + 1
        · subst hk; rw [Function.update_self] at ha; exact .inr ⟨rfl, (o.mem_iff _ _).1 ha⟩
        · rw [Function.update_of_ne hk] at ha
          by_cases hk : k = h.ver u
          · subst hk; rw [Function.update_self] at ha; exact .inr ⟨rfl, ha⟩
          · rw [Function.update_of_ne hk] at ha; exact .inl ha
      · rw [Function.update_of_ne hu] at ha; exact .inl ha
    refine ⟨⟨?_, ?_⟩, ⟨?_, ?_⟩⟩
    · intro u k v hv
      rcases hlists u k v hv with hv | ⟨_, hv⟩
      · exact hi.range u k v hv
      · exact (hmem v hv).1
    · intro u k r hs hv
      rcases hlists u k r hv with hv | ⟨rfl, hv⟩
      · exact hi.places u k r hs hv
      · exact (hmem r hv).2 hs
    · simp [replaceDep, DepHeap.deps, Function.update_of_ne hn.symm]
    · intro u r hs hm
      by_cases hu : u = node
      · subst hu
        simpa [replaceDep, DepHeap.deps, o.mem_iff] using hkeep r hs hm
      · simpa [replaceDep, DepHeap.deps, Function.update_of_ne hu] using hm

theorem scanX_good {o : SetOrder Ref} {root leaf : Ref} (hl : 0 < leaf ∧ leaf < w.next)
    (ho : other leaf = none) (hr : other root = none) (fuel : Nat) :
    ∀ (node obj i : Nat) (h : DepHeap), HInv other w h → node ≠ 0 →
      HInv other w (scanX o other root leaf fuel node obj i h).1 ∧
      HKeeps other h (scanX o other root leaf fuel node obj i h).1 := by
  induction fuel with
  | zero => intro node obj i h hi _; exact ⟨hi, HKeeps.refl _ _⟩
  | succ fuel ih =>
    intro node obj i h hi hn
    rw [scanX]
    cases hd : (h.lists node obj)[i]? with
    | none => exact ⟨hi, HKeeps.refl _ _⟩
    | some dep =>
      simp only
      have hdep : dep ≠ 0 := ((hi.range _ _ _ (List.mem_of_getElem? hd)).1).ne'
      have h1 : HInv other w (if dep = root then replaceDepX o other root leaf node h else (h, none)).1 ∧
          HKeeps other h (if dep = root then replaceDepX o other root leaf node h else (h, none)).1 := by
        split
        · exact replaceDepX_good hi hl ho hr hn
        · exact ⟨hi, HKeeps.refl _ _⟩
      generalize (if dep = root then replaceDepX o other root leaf node h else (h, none)) = p at h1 ⊢
      obtain ⟨h', e⟩ := p
      cases e with
      | some err => exact h1
      | none =>
        simp only at h1 ⊢
        split
        · exact h1
        · have h2 := ih dep (h'.ver dep) 0 h' h1.1 hdep
          generalize scanX o other root leaf fuel dep (h'.ver dep) 0 h' = q at h2 ⊢
          obtain ⟨h'', e⟩ := q
          cases e with
          | some err => exact ⟨h2.1, h1.2.trans h2.2⟩
          | none =>
            have h3 := ih node obj (i + 1) h'' h2.1 hn
            exact ⟨h3.1, h1.2.trans (h2.2.trans h3.2)⟩

theorem XInv.replace {x : XWorld} (h : XInv x.other x.w) {root node : Ref}
    (hr : x.other root = none) (hn : node ≠ 0) :
    XGood x.other x.w (x.replace genv root node).1.w ∧ (x.replace genv root node).1.other = x.other ∧
      (x.replace genv root node).1.w.next = x.w.next + 1 := by
  refine ⟨?_, rfl, rfl⟩
  have a1 := h.alloc .input (x.w.name root) (by decide)
  have hi : HInv x.other (x.w.alloc .input (x.w.name root))
      (DepHeap.ofGraph (x.w.alloc .input (x.w.name root)).deps) :=
    ⟨fun u k v hv => a1.1.range u v hv, fun u k r hs hm => a1.1.places u r hs hm⟩
  obtain ⟨h1, h2⟩ := scanX_good (o := genv.o) (root := root) (leaf := x.w.next)
    ⟨h.pos, Nat.lt_succ_self _⟩ h.other_next hr genv.fuel node 0 0 _ hi hn
  refine a1.trans ⟨⟨a1.1.pos, fun u v hv => h1.range u _ v hv, a1.1.recent, a1.1.decomp, a1.1.others,
    a1.1.root, a1.1.fresh, ?_, fun u r hs hm => h1.places u _ r hs hm⟩,
    ⟨le_rfl, fun _ _ => rfl, fun u r hs hm => h2.other u r hs hm, ?_, fun _ h => h⟩⟩
  · intro u hu
    have := a1.1.outs u hu
    show u ∈ DepHeap.deps _ 0
    rw [h2.root]; exact this
  · intro v hv
    show v ∈ DepHeap.deps _ 0
    rw [h2.root]; exact hv

end OM

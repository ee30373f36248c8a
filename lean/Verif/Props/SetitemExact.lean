import Verif.Props.Setitem

/-!
# Histories of assignments in which some were refused (C17, C18)

An assignment refused because its indices overlap with earlier ones is recorded all the same. Here is what any history of
caught failures does, exactly.
-/

namespace OM
open Spec

/-- The assignment `a` made after `pre` is recorded: it would be accepted as the first one, and its expression was not
recorded before. -/
def Recorded (shape : List Nat) (pre : List Assign) (a : Assign) : Prop :=
  AcceptedAt shape [] a ∧ ∀ c ∈ pre, AcceptedAt shape [] c → c.2.1 ≠ a.2.1

theorem acceptedAt_nil {shape : List Nat} {a : Assign} :
    AcceptedAt shape [] a ↔ ∃ idx, tgtIndices shape a.1 = .ok (a.2.2, idx) ∧ ∀ i ∈ idx, i < prodShape shape := by
  constructor
  · intro h
    obtain ⟨idx, h1, h2, -⟩ := accepted_entry h
    exact ⟨idx, h1, h2⟩
  · rintro ⟨idx, h1, h2⟩
    unfold AcceptedAt
    have ho := setItem_outcome (assigns (OVar.new shape) []) a.1 a.2.1 a.2.2
    have e : (assigns (OVar.new shape) []) = ⟨shape, [], [], false⟩ := rfl
    rw [e]
    unfold setItemIdx
    simp only [h1]
    rw [if_neg (by simp), if_neg, if_neg (by simp), if_neg (by simp)]
    rintro ⟨i, hi, hge⟩
    have := h2 i hi
    omega

/-- The first assignment of an expression that would be accepted as the first one is recorded. -/
theorem first_recorded {shape : List Nat} (l : List Assign) : ∀ c ∈ l, AcceptedAt shape [] c →
    ∃ pre b post, l = pre ++ b :: post ∧ Recorded shape pre b ∧ b.2.1 = c.2.1 := by
  induction l using List.reverseRecOn with
  | nil => simp
  | append_singleton l b ihl =>
    intro c hc hacc
    by_cases hex : ∃ c' ∈ l, AcceptedAt shape [] c' ∧ c'.2.1 = c.2.1
    · obtain ⟨c', hc', ha', hn'⟩ := hex
      obtain ⟨pre, b', post, he, hr, hn⟩ := ihl c' hc' ha'
      exact ⟨pre, b', post ++ [b], by simp [he], hr, hn.trans hn'⟩
    · rcases List.mem_append.1 hc with hc | hc
      · exact absurd ⟨c, hc, hacc, rfl⟩ hex
      · have hcb : c = b := by simpa using hc
        subst hcb
        exact ⟨l, c, [], rfl, ⟨hacc, fun c' hc' ha' hn' => hex ⟨c', hc', ha', hn'⟩⟩, rfl⟩

theorem forall₂_mem_left {α β : Type} {R : α → β → Prop} {l : List α} {m : List β} (h : List.Forall₂ R l m) {a : α}
    (ha : a ∈ l) : ∃ b ∈ m, R a b := by
  induction h with
  | nil => simp at ha
  | cons hr _ ih =>
    rcases List.mem_cons.1 ha with rfl | ha
    · exact ⟨_, by simp, hr⟩
    · obtain ⟨b, hb, h⟩ := ih ha
      exact ⟨b, by simp [hb], h⟩

theorem forall₂_mem_right {α β : Type} {R : α → β → Prop} {l : List α} {m : List β} (h : List.Forall₂ R l m) {b : β}
    (hb : b ∈ m) : ∃ a ∈ l, R a b := forall₂_mem_left h.flip hb

/-- The entries of the output after any history are the recorded assignments, in order. -/
theorem recorded_entries (shape : List Nat) (as : List Assign) :
    ∃ rs : List (List Assign × Assign), (∀ q ∈ rs, ∃ post, as = q.1 ++ q.2 :: post ∧ Recorded shape q.1 q.2) ∧
      (∀ pre a post, as = pre ++ a :: post → Recorded shape pre a → (pre, a) ∈ rs) ∧
      (rs.map fun q => q.1.length).Pairwise (· < ·) ∧
      List.Forall₂ (fun (q : List Assign × Assign) p => ∃ idx, tgtIndices shape q.2.1 = .ok (q.2.2.2, idx) ∧
        (∀ i ∈ idx, i < prodShape shape) ∧ p = (q.2.2.1, q.2.2.2, idx)) rs (assigns (OVar.new shape) as).tgt := by
  induction as using List.reverseRecOn with
  | nil =>
    refine ⟨[], by simp, ?_, by simp, List.Forall₂.nil⟩
    intro pre a post h
    simp at h
  | append_singleton as a ih =>
    obtain ⟨rs, h1, h2, h3, h4⟩ := ih
    have hnames : ∀ n, (∃ p ∈ (assigns (OVar.new shape) as).tgt, p.1 = n) ↔
        ∃ c ∈ as, AcceptedAt shape [] c ∧ c.2.1 = n := by
      intro n
      constructor
      · rintro ⟨p, hp, rfl⟩
        obtain ⟨q, hq, idx, -, -, rfl⟩ := forall₂_mem_right h4 hp
        obtain ⟨post, he, hr⟩ := h1 q hq
        exact ⟨q.2, by rw [he]; simp, hr.1, rfl⟩
      · rintro ⟨c, hc, hacc, rfl⟩
        obtain ⟨pre, b, post, he, hr, hn⟩ := first_recorded as c hc hacc
        obtain ⟨p, hp, idx, -, -, rfl⟩ := forall₂_mem_left h4 (h2 pre b post he hr)
        exact ⟨_, hp, hn⟩
    have hs : (assigns (OVar.new shape) as).shape = shape := assigns_shape _ _
    have hold : ∀ q ∈ rs, ∃ post, as ++ [a] = q.1 ++ q.2 :: post ∧ Recorded shape q.1 q.2 := by
      intro q hq
      obtain ⟨post, he, hr⟩ := h1 q hq
      exact ⟨post ++ [a], by simp [he], hr⟩
    have hsplit : ∀ pre b post, as ++ [a] = pre ++ b :: post → (pre = as ∧ b = a) ∨ ∃ post', as = pre ++ b :: post' := by
      intro pre b post he
      rcases List.eq_nil_or_concat post with rfl | ⟨post', c, rfl⟩
      · obtain ⟨rfl, hab⟩ := List.append_inj' he rfl
        exact Or.inl ⟨rfl, by simpa using hab.symm⟩
      · have he' : as ++ [a] = (pre ++ b :: post') ++ [c] := by simpa using he
        exact Or.inr ⟨post', (List.append_inj' he' rfl).1⟩
    by_cases hrec : Recorded shape as a
    · obtain ⟨idx, i1, i2⟩ := acceptedAt_nil.1 hrec.1
      have htgt : (assigns (OVar.new shape) (as ++ [a])).tgt =
          (assigns (OVar.new shape) as).tgt ++ [(a.2.1, a.2.2, idx)] := by
        rw [assigns_snoc]
        unfold setItemIdx
        simp only [hs, i1]
        rw [if_neg (by simp), if_neg, if_neg]
        · split <;> rfl
        · intro h
          obtain ⟨c, hc, hacc, hn⟩ := (hnames a.2.1).1 h
          exact hrec.2 c hc hacc hn
        · rintro ⟨i, hi, hge⟩
          have := i2 i hi
          omega
      refine ⟨rs ++ [(as, a)], ?_, ?_, ?_, ?_⟩
      · intro q hq
        rcases List.mem_append.1 hq with hq | hq
        · exact hold q hq
        · have : q = (as, a) := by simpa using hq
          subst this
          exact ⟨[], rfl, hrec⟩
      · intro pre b post he hr
        rcases hsplit pre b post he with ⟨rfl, rfl⟩ | ⟨post', he'⟩
        · simp
        · exact List.mem_append_left _ (h2 pre b post' he' hr)
      · rw [List.map_append, List.pairwise_append]
        refine ⟨h3, by simp, ?_⟩
        intro m hm m' hm'
        obtain ⟨q, hq, rfl⟩ := List.mem_map.1 hm
        obtain ⟨post, he, -⟩ := h1 q hq
        have hm'' : m' = as.length := by simpa using hm'
        rw [hm'', he]
        simp
      · rw [htgt]
        exact List.rel_append h4 (.cons ⟨idx, i1, i2, rfl⟩ .nil)
    · have htgt : (assigns (OVar.new shape) (as ++ [a])).tgt = (assigns (OVar.new shape) as).tgt := by
        rw [assigns_snoc]
        have ho := setItem_outcome (assigns (OVar.new shape) as) a.1 a.2.1 a.2.2
        have hno : ∀ idx, tgtIndices (assigns (OVar.new shape) as).shape a.1 = .ok (a.2.2, idx) →
            (∀ i ∈ idx, i < prodShape (assigns (OVar.new shape) as).shape) →
            (∀ p ∈ (assigns (OVar.new shape) as).tgt, p.1 ≠ a.2.1) → False := by
          intro idx i1 i2 i3
          rw [hs] at i1 i2
          refine hrec ⟨acceptedAt_nil.2 ⟨idx, i1, i2⟩, fun c hc hacc hn => ?_⟩
          obtain ⟨p, hp, hp'⟩ := (hnames a.2.1).2 ⟨c, hc, hacc, hn⟩
          exact i3 p hp hp'
        generalize setItemIdx (assigns (OVar.new shape) as) a.1 a.2.1 a.2.2 = r at *
        cases ho with
        | refused e => rfl
        | overlap idx h1 h2 h3 => exact (hno idx h1 h2 h3).elim
        | accepted idx h1 h2 h3 => exact (hno idx h1 h2 h3).elim
      rw [htgt]
      refine ⟨rs, hold, ?_, h3, h4⟩
      intro pre b post he hr
      rcases hsplit pre b post he with ⟨rfl, rfl⟩ | ⟨post', he'⟩
      · exact absurd hr hrec
      · exact h2 pre b post' he' hr

/-- What the component computes from entries that may overlap: later ones win. -/
theorem indexedPassThrough_last {α : Type} (x : String → Nat → α)
    (tgt : List (String × List Nat × List Int)) (out : Nat → α)
    (hnn : ∀ p ∈ tgt, ∀ i ∈ p.2.2, 0 ≤ i) (hnd : ∀ p ∈ tgt, p.2.2.Nodup) :
    ∃ r, indexedPassThrough tgt x out = .ok r ∧
      (∀ pre p post, tgt = pre ++ p :: post → ∀ (k : Nat) (h : k < p.2.2.length),
        (∀ q ∈ post, p.2.2[k] ∉ q.2.2) → r p.2.2[k].toNat = x p.1 k) ∧
      ∀ i : Nat, (∀ p ∈ tgt, (i : Int) ∉ p.2.2) → r i = out i := by
  induction tgt generalizing out with
  | nil => exact ⟨out, rfl, by simp, by simp⟩
  | cons p tgt ih =>
    obtain ⟨w1, w2⟩ := writeBlock (x p.1) p.2.2 0 out (hnn p (by simp)) (hnd p (by simp))
    obtain ⟨r, h1, h2, h3⟩ := ih ((p.2.2.zipIdx).foldl
      (fun out q => Function.update out q.1.toNat (x p.1 q.2)) out)
      (fun q hq => hnn q (by simp [hq])) (fun q hq => hnd q (by simp [hq]))
    refine ⟨r, ?_, ?_, ?_⟩
    · unfold indexedPassThrough at h1 ⊢
      rw [List.foldlM_cons, if_neg]
      · exact h1
      · rintro ⟨i, hi, hlt⟩
        have := hnn p (by simp) i hi
        omega
    · intro pre q post he k hk hq
      cases pre with
      | nil =>
        obtain ⟨rfl, rfl⟩ : p = q ∧ tgt = post := by simpa using he
        have hkn := hnn p (by simp) _ (List.getElem_mem hk)
        rw [h3, w1 k hk, Nat.zero_add]
        intro p' hp'
        rw [show ((p.2.2[k].toNat : Nat) : Int) = p.2.2[k] by omega]
        exact hq p' hp'
      | cons b pre =>
        obtain ⟨-, he'⟩ : p = b ∧ tgt = pre ++ q :: post := by simpa using he
        exact h2 pre q post he' k hk hq
    · intro i hi
      rw [h3 i fun q hq => hi q (by simp [hq]), w2 i (hi p (by simp))]

theorem forall₂_split {α β : Type} {R : α → β → Prop} {l : List α} {m : List β} (h : List.Forall₂ R l m) {a : α}
    (ha : a ∈ l) : ∃ l₁ l₂ m₁ b m₂, l = l₁ ++ a :: l₂ ∧ m = m₁ ++ b :: m₂ ∧ R a b ∧ List.Forall₂ R l₂ m₂ := by
  induction h with
  | nil => simp at ha
  | cons hr ht ih =>
    rename_i a' b' l m
    by_cases he : a = a'
    · subst he
      exact ⟨[], l, [], b', m, rfl, rfl, hr, ht⟩
    · obtain ⟨l₁, l₂, m₁, b, m₂, h1, h2, h3, h4⟩ := ih (by simpa [he] using ha)
      exact ⟨a' :: l₁, l₂, b' :: m₁, b, m₂, by simp [h1], by simp [h2], h3, h4⟩

/-- **C17, exactly**, for every history of assignments without negative ints, whether or not some of them raised:
the component computes, for every position, the element of the expression of the last recorded assignment touching it;
positions touched by no recorded assignment keep the value they had. -/
theorem c17_exact {shape : List Nat} {as : List Assign}
    (hneg : ∀ a ∈ as, ∀ k, a.1 = .one (.int k) → 0 ≤ k) {α : Type} (x : String → Nat → α) (out : Nat → α) :
    ∃ r, indexedPassThrough (assigns (OVar.new shape) as).tgt x out = .ok r ∧
      (∀ pre a post pos, as = pre ++ a :: post → Recorded shape pre a → Touched shape a.1 pos →
        ∀ (k : Nat) (h : k < pos.length),
          (∀ mid b rest q, post = mid ++ b :: rest → Recorded shape (pre ++ a :: mid) b → Touched shape b.1 q →
            pos[k] ∉ q) →
          r pos[k] = x a.2.1 k) ∧
      (∀ i : Nat, (∀ pre a post pos, as = pre ++ a :: post → Recorded shape pre a → Touched shape a.1 pos → i ∉ pos) →
        r i = out i) := by
  obtain ⟨rs, h1, h2, h3, h4⟩ := recorded_entries shape as
  have hmem : ∀ q ∈ rs, q.2 ∈ as := fun q hq => by
    obtain ⟨post, he, -⟩ := h1 q hq
    rw [he]; simp
  have hentry : ∀ p ∈ (assigns (OVar.new shape) as).tgt, ∃ q ∈ rs, tgtIndices shape q.2.1 = .ok (q.2.2.2, p.2.2) ∧
      p.1 = q.2.2.1 := by
    intro p hp
    obtain ⟨q, hq, idx, i1, -, rfl⟩ := forall₂_mem_right h4 hp
    exact ⟨q, hq, i1, rfl⟩
  have hnn : ∀ p ∈ (assigns (OVar.new shape) as).tgt, ∀ i ∈ p.2.2, 0 ≤ i := by
    intro p hp
    obtain ⟨q, hq, ht, -⟩ := hentry p hp
    exact (tgtIndices_facts ht).nonneg fun k hk => hneg _ (hmem q hq) k hk
  obtain ⟨r, r1, r2, r3⟩ := indexedPassThrough_last x _ out hnn fun p hp => by
    obtain ⟨q, hq, ht, -⟩ := hentry p hp
    exact (tgtIndices_facts ht).nodup
  refine ⟨r, r1, ?_, ?_⟩
  · intro pre a post pos he hrec hpos k hk hlast
    have hq := h2 pre a post he hrec
    obtain ⟨l₁, l₂, m₁, p, m₂, e1, e2, ⟨idx, i1, i2, rfl⟩, e3⟩ := forall₂_split h4 hq
    have hti := tgt_touched i1 fun k hk => hneg _ (hmem _ hq) k hk
    have hidx : pos = idx.map Int.toNat := touched_unique hpos hti
    subst hidx
    have hk' : k < idx.length := by simpa using hk
    have hkn : 0 ≤ idx[k] := hnn (a.2.1, a.2.2, idx) (by rw [e2]; simp) _ (List.getElem_mem hk')
    have hr := r2 m₁ _ m₂ e2 k hk' ?_
    · simpa using hr
    intro p' hp' hin
    obtain ⟨q', hq', idx', j1, j2, rfl⟩ := forall₂_mem_right e3 hp'
    have hq'rs : q' ∈ rs := by rw [e1]; simp [hq']
    obtain ⟨post', he', hrec'⟩ := h1 q' hq'rs
    -- `q'` comes after `a`
    have hlt : pre.length < q'.1.length := by
      rw [e1, List.map_append, List.map_cons, List.pairwise_append, List.pairwise_cons] at h3
      exact h3.2.1.1 _ (List.mem_map.2 ⟨q', hq', rfl⟩)
    have hpre : ∃ mid, q'.1 = pre ++ a :: mid ∧ post = mid ++ q'.2 :: post' := by
      rw [he] at he'
      rcases List.append_eq_append_iff.1 he' with ⟨c, hc1, hc2⟩ | ⟨c, hc1, hc2⟩
      · cases c with
        | nil => rw [hc1] at hlt; simp at hlt
        | cons d c =>
          obtain ⟨rfl, rfl⟩ : a = d ∧ post = c ++ q'.2 :: post' := by simpa using hc2
          exact ⟨c, hc1, rfl⟩
      · rw [hc1] at hlt
        simp at hlt
    obtain ⟨mid, m1, m2⟩ := hpre
    refine hlast mid q'.2 post' (idx'.map Int.toNat) m2 (m1 ▸ hrec')
      (tgt_touched j1 fun k hk => hneg _ (hmem _ hq'rs) k hk) ?_
    rw [List.getElem_map]
    exact List.mem_map.2 ⟨_, hin, rfl⟩
  · intro i hi
    refine r3 i fun p hp hm => ?_
    obtain ⟨q, hq, ht, -⟩ := hentry p hp
    obtain ⟨post, he, hrec⟩ := h1 q hq
    refine hi q.1 q.2 post _ he hrec (tgt_touched ht fun k hk => hneg _ (hmem q hq) k hk) ?_
    exact List.mem_map.2 ⟨_, hm, by simp⟩

/-- **C17**, negative ints: once an assignment with a negative int as key is recorded, running the component raises
`ValueError`, whatever else is assigned. -/
theorem c17_negative_int {shape : List Nat} {pre post : List Assign} {a : Assign} (hrec : Recorded shape pre a) {k : Int}
    (hk : a.1 = .one (.int k)) (hneg : k < 0) {α : Type} (x : String → Nat → α) (out : Nat → α) :
    indexedPassThrough (assigns (OVar.new shape) (pre ++ a :: post)).tgt x out = .error .valueError := by
  obtain ⟨rs, h1, h2, h3, h4⟩ := recorded_entries shape (pre ++ a :: post)
  obtain ⟨p, hp, idx, i1, -, rfl⟩ := forall₂_mem_left h4 (h2 pre a post rfl hrec)
  have hm : ∃ i ∈ idx, i < 0 := by
    rw [hk] at i1
    cases hi : a.2.2 with
    | nil => simp [tgtIndices, hi] at i1
    | cons m ms =>
      simp [tgtIndices, hi] at i1
      exact ⟨k, by rw [← i1.2]; simp, hneg⟩
  revert hp
  generalize (assigns (OVar.new shape) (pre ++ a :: post)).tgt = tgt
  intro hp
  induction tgt generalizing out with
  | nil => simp at hp
  | cons q tgt ih =>
    unfold indexedPassThrough at ih ⊢
    rw [List.foldlM_cons]
    split
    · rfl
    · rename_i hno
      rcases List.mem_cons.1 hp with rfl | hp
      · exact absurd hm hno
      · exact ih _ hp

/-- **C17**: the output has a component if and only if some assignment was recorded, refused ones included. -/
theorem c17_built {shape : List Nat} {as : List Assign} :
    (assigns (OVar.new shape) as).built = true ↔ ∃ pre a post, as = pre ++ a :: post ∧ Recorded shape pre a := by
  have key : ((assigns (OVar.new shape) as).built = true ↔ (assigns (OVar.new shape) as).tgt ≠ []) ∧
      ((assigns (OVar.new shape) as).tgt = [] → (assigns (OVar.new shape) as).checked = []) := by
    induction as using List.reverseRecOn with
    | nil => exact ⟨⟨fun h => (Bool.false_ne_true h).elim, fun h => absurd rfl h⟩, fun _ => rfl⟩
    | append_singleton as a ih =>
      rw [assigns_snoc]
      have ho := setItem_outcome (assigns (OVar.new shape) as) a.1 a.2.1 a.2.2
      generalize setItemIdx (assigns (OVar.new shape) as) a.1 a.2.1 a.2.2 = r at *
      cases ho with
      | refused e => exact ih
      | overlap idx h hr hn ho =>
        obtain ⟨i, -, hi⟩ := ho
        have : (assigns (OVar.new shape) as).tgt ≠ [] := fun e => by rw [ih.2 e] at hi; simp at hi
        simp [ih.1.2 this]
      | accepted idx h hr hn ho => simp
  obtain ⟨rs, h1, h2, -, h4⟩ := recorded_entries shape as
  rw [key.1]
  constructor
  · intro hne
    obtain ⟨p, hp⟩ := List.exists_mem_of_ne_nil _ hne
    obtain ⟨q, hq, -⟩ := forall₂_mem_right h4 hp
    obtain ⟨post, he, hrec⟩ := h1 q hq
    exact ⟨q.1, q.2, post, he, hrec⟩
  · rintro ⟨pre, a, post, he, hrec⟩ hnil
    obtain ⟨p, hp, -⟩ := forall₂_mem_left h4 (h2 pre a post he hrec)
    rw [hnil] at hp
    simp at hp

/-- **C18, exactly**, for every history without negative ints: an assignment is accepted if and only if it would be
accepted as the first one, its expression was not recorded before, and it touches no position touched by a recorded
assignment, accepted or not. -/
theorem c18_exact {shape : List Nat} {as : List Assign} {a : Assign}
    (hneg : ∀ c ∈ as ++ [a], ∀ k, c.1 = .one (.int k) → 0 ≤ k) :
    AcceptedAt shape as a ↔ Recorded shape as a ∧
      ∀ pre b post p q, as = pre ++ b :: post → Recorded shape pre b → Touched shape b.1 p → Touched shape a.1 q →
        ∀ i ∈ p, i ∉ q := by
  obtain ⟨rs, h1, h2, h3, h4⟩ := recorded_entries shape as
  have hs : (assigns (OVar.new shape) as).shape = shape := assigns_shape _ _
  have hck := assigns_checked shape as
  have hnames : ∀ c ∈ as, AcceptedAt shape [] c → ∃ p ∈ (assigns (OVar.new shape) as).tgt, p.1 = c.2.1 := by
    intro c hc hacc
    obtain ⟨pre, b, post, he, hr, hn⟩ := first_recorded as c hc hacc
    obtain ⟨p, hp, idx, -, -, rfl⟩ := forall₂_mem_left h4 (h2 pre b post he hr)
    exact ⟨_, hp, hn⟩
  constructor
  · intro h
    obtain ⟨idx, i1, i2, i3, i4, -⟩ := accepted_entry h
    refine ⟨⟨acceptedAt_nil.2 ⟨idx, i1, i2⟩, fun c hc hacc hn => ?_⟩, ?_⟩
    · obtain ⟨p, hp, hp'⟩ := hnames c hc hacc
      exact i3 p hp (hp'.trans hn)
    · intro pre b post p q he hrec hp hq i hip hiq
      obtain ⟨e, hmem, idx', j1, j2, rfl⟩ := forall₂_mem_left h4 (h2 pre b post he hrec)
      have hb : b ∈ as := by rw [he]; simp
      have nb : ∀ k, b.1 = .one (.int k) → 0 ≤ k := fun k hk => hneg b (by simp [hb]) k hk
      have na : ∀ k, a.1 = .one (.int k) → 0 ≤ k := fun k hk => hneg a (by simp) k hk
      rw [touched_unique hp (tgt_touched j1 nb)] at hip
      rw [touched_unique hq (tgt_touched i1 na)] at hiq
      obtain ⟨z, hz, rfl⟩ := List.mem_map.1 hip
      obtain ⟨z', hz', e⟩ := List.mem_map.1 hiq
      have := (tgtIndices_facts j1).nonneg nb z hz
      have := (tgtIndices_facts i1).nonneg na z' hz'
      refine i4 z' hz' ?_
      rw [hck, List.mem_flatMap]
      exact ⟨_, hmem, by rw [show z' = z by omega]; exact hz⟩
  · rintro ⟨hrec, hdis⟩
    obtain ⟨idx, i1, i2⟩ := acceptedAt_nil.1 hrec.1
    unfold AcceptedAt setItemIdx
    simp only [hs, i1]
    rw [if_neg (by simp), if_neg, if_neg, if_neg]
    · rintro ⟨z, hz, hzc⟩
      rw [hck, List.mem_flatMap] at hzc
      obtain ⟨p, hp, hzp⟩ := hzc
      obtain ⟨q, hq, idx', j1, j2, rfl⟩ := forall₂_mem_right h4 hp
      obtain ⟨post, he, hr⟩ := h1 q hq
      have hb : q.2 ∈ as := by rw [he]; simp
      exact hdis q.1 q.2 post _ _ he hr (tgt_touched j1 fun k hk => hneg _ (by simp [hb]) k hk)
        (tgt_touched i1 fun k hk => hneg a (by simp) k hk) z.toNat (List.mem_map.2 ⟨z, hzp, rfl⟩)
        (List.mem_map.2 ⟨z, hz, rfl⟩)
    · rintro ⟨p, hp, hn⟩
      obtain ⟨q, hq, idx', j1, j2, rfl⟩ := forall₂_mem_right h4 hp
      obtain ⟨post, he, hr⟩ := h1 q hq
      exact hrec.2 q.2 (by rw [he]; simp) hr.1 hn
    · rintro ⟨i, hi, hge⟩
      have := i2 i hi
      omega

/-! ## A refused assignment blocks positions -/

theorem slice_recorded (n a b : Nat) (hab : a < b) (hb : b ≤ n) (name : String) :
    AcceptedAt [n] [] (.one (.slice (some a) (some b) none), name, [b - a]) ∧
    Touched [n] (.one (.slice (some a) (some b) none)) (List.range' a (b - a)) := by
  have hr : IsRange (a : Int) b 1 ((List.range' a (b - a)).map Int.ofNat) := by
    refine ⟨fun i h => ?_, fun x hx => ?_, ?_⟩
    · simp
    · obtain ⟨y, hy, rfl⟩ := List.mem_map.1 hx
      have := List.mem_range'_1.1 hy
      simp only [Int.zero_lt_one, if_true, Int.ofNat_eq_natCast]
      omega
    · simp
      omega
  have hl : sliceToList (some (a : Int)) (some (b : Int)) none (some n) = .ok ((List.range' a (b - a)).map Int.ofNat) := by
    rw [sliceToList_nonneg (by omega)]
    have e : pyRange (a : Int) b 1 = (List.range' a (b - a)).map Int.ofNat :=
      isRange_unique (pyRange_isRange _ _ _ (by omega)) hr
    unfold checkedRange
    simp only [Option.getD_some, Option.getD_none]
    rw [e, if_neg (by omega), if_neg (by simp; omega), if_neg]
    rintro ⟨x, hx, hlt⟩
    obtain ⟨y, -, rfl⟩ := List.mem_map.1 hx
    simp at hlt
    omega
  refine ⟨acceptedAt_nil.2 ⟨(List.range' a (b - a)).map Int.ofNat, ?_, ?_⟩, n, [], rfl, ?_⟩
  · simp only [tgtIndices, hl, Except.map]
    simp
  · intro i hi
    obtain ⟨y, hy, rfl⟩ := List.mem_map.1 hi
    have := List.mem_range'_1.1 hy
    simp [prodShape]
    omega
  · simp only [Option.getD_some, Option.getD_none]
    rw [if_neg (by omega)]
    exact hr

/-- The code violates C18 in another way: a refused assignment makes later ones fail that no accepted assignment
contradicts. In an output of any length `n + 3`, after `out[0:2] = a` was accepted and `out[1:3] = b` was refused,
`out[2] = c` is refused, although nothing was assigned to position 2. -/
theorem c18_refused_blocks (n : Nat) :
    let a : Assign := (.one (.slice (some 0) (some 2) none), "a", [2])
    let b : Assign := (.one (.slice (some 1) (some 3) none), "b", [2])
    let c : Assign := (.one (.int 2), "c", [1])
    AcceptedAt [n + 3] [] a ∧ ¬ AcceptedAt [n + 3] [a] b ∧ AcceptedAt [n + 3] [a] c ∧ ¬ AcceptedAt [n + 3] [a, b] c := by
  intro a b c
  obtain ⟨a1, a2⟩ := slice_recorded (n + 3) 0 2 (by omega) (by omega) "a"
  obtain ⟨b1, b2⟩ := slice_recorded (n + 3) 1 3 (by omega) (by omega) "b"
  have c1 : AcceptedAt [n + 3] [] c := acceptedAt_nil.2 ⟨[2], rfl, by simp [prodShape]; omega⟩
  have c2 : Touched [n + 3] c.1 [2] := ⟨by omega, rfl⟩
  have hneg : ∀ d : Assign, d = a ∨ d = b ∨ d = c → ∀ k, d.1 = .one (.int k) → 0 ≤ k := by
    rintro d (rfl | rfl | rfl) k hk
    · cases hk
    · cases hk
    · cases hk; omega
  have ra : Recorded [n + 3] [] a := ⟨a1, by simp⟩
  have rb : Recorded [n + 3] [a] b := ⟨b1, by simp [a, b]⟩
  refine ⟨a1, fun h => ?_, ?_, fun h => ?_⟩
  · have := ((c18_exact (as := [a]) (fun d hd => hneg d (by simp at hd; tauto))).1 h).2 [] a [] _ _ rfl ra a2 b2 1
      (by decide)
    exact this (by decide)
  · refine (c18_exact (as := [a]) (fun d hd => hneg d (by simp at hd; tauto))).2 ⟨⟨c1, by simp [a, c]⟩, ?_⟩
    intro pre d post p q he hr hp hq i hip hiq
    cases pre with
    | cons x pre => simp at he
    | nil =>
      obtain ⟨rfl, rfl⟩ : a = d ∧ post = [] := by simpa using he
      rw [touched_unique hp a2] at hip
      rw [touched_unique hq c2] at hiq
      have := List.mem_range'_1.1 hip
      have : i = 2 := by simpa using hiq
      omega
  · have := ((c18_exact (as := [a, b]) (fun d hd => hneg d (by simp at hd; tauto))).1 h).2 [a] b [] _ _ rfl rb b2 c2 2
      (by decide)
    exact this (by decide)

/-! ## Accepted keys that cannot be read (C21) -/

/-- The code violates C21: `out[:-k] = a` is accepted, for an output of any length `n + k`, but reading `out[:-k]` raises
`TypeError`. -/
theorem c21_negative_stop (n k : Nat) (hn : 0 < n) (hk : 0 < k) :
    let key : Key := .one (.slice none (some (-(k : Int))) none)
    AcceptedAt [n + k] [] (key, "a", [n]) ∧ (getItem (IVar.new [n + k] [n + k]) key).2 = .error .typeError := by
  intro key
  constructor
  · obtain ⟨h1, -⟩ := slice_recorded (n + k) 0 n hn (by omega) "a"
    obtain ⟨idx, i1, i2⟩ := acceptedAt_nil.1 h1
    refine acceptedAt_nil.2 ⟨idx, ?_, i2⟩
    have e : sliceToList none (some (-(k : Int))) none (some (n + k)) =
        sliceToList (some ((0 : Nat) : Int)) (some (n : Int)) none (some (n + k)) := by
      rw [sliceToList_nonneg (stop := (n : Int)) (by omega)]
      unfold sliceToList
      simp only
      rw [if_pos (by omega), if_neg (by push_cast; omega)]
      have : ((n + k : Nat) : Int) + -(k : Int) = n := by push_cast; ring
      rw [this]
      rfl
    simp only [tgtIndices, Nat.sub_zero, key] at i1 ⊢
    rw [← i1, e]
  · have hfirst : firstUse (IVar.new [n + k] [n + k]) key =
        (⟨[n + k], [n + k], true, some [], 1⟩, none) := by
      simp [firstUse, IVar.new, key, Key.items, npIndexShape, Except.map]
    have hlists : keyLists [(0, -(k : Int), none)] = .error .typeError := by
      unfold keyLists sliceToList
      simp only
      rw [if_pos (by omega)]
    simp only [getItem, hfirst, key, normKey, normItem, Option.getD_none, Option.getD_some, getDecomposed, List.find?_nil,
      hlists]

/-- The code violates C21: `out[k] = a` is accepted for an `n` by `m` output and any flat position `k`, but reading
`out[k]` raises: `IndexError` if `k` is not below `n`, and some exception in any case. -/
theorem c21_matrix_int_key (n m k : Nat) (hk : k < n * m) :
    AcceptedAt [n, m] [] (.one (.int k), "a", [1]) ∧
    (n ≤ k → (getItem (IVar.new [n, m] [n, m]) (.one (.int k))).2 = .error .indexError) ∧
    ∀ reads, ∀ ex, (getItem (getItems (IVar.new [n, m] [n, m]) reads) (.one (.int k))).2 ≠ .ok ex := by
  refine ⟨acceptedAt_nil.2 ⟨[(k : Int)], rfl, ?_⟩, fun h => ?_, ?_⟩
  · intro i hi
    have : i = k := by simpa using hi
    subst this
    have : prodShape [n, m] = n * m := by simp [prodShape]
    rw [this]
    exact_mod_cast hk
  · have hfirst : firstUse (IVar.new [n, m] [n, m]) (.one (.int k)) =
        (⟨[n, m], [n, m], true, none, 0⟩, some .indexError) := by
      simp only [firstUse, IVar.new, Key.items, npIndexShape]
      rw [if_neg (by decide), if_neg (by omega)]
    simp only [getItem, hfirst]
  · intro reads ex h
    obtain ⟨sels, s1, -, -⟩ := c19_never_wrong reads _ h
    cases s1 with
    | cons h1 h2 => cases h2

example : AcceptedAt [2, 3] [] (.one (.int 4), "a", [1]) := (c21_matrix_int_key 2 3 4 (by decide)).1

/-- The history of `c18_refused_blocks`, for an output of length 4, with `out[3] = d` at the end: positions 1 and 2 come from
the refused `b` and `c`, position 3 from `d`. -/
example {α : Type} (x : String → Nat → α) (out : Nat → α) :
    (indexedPassThrough (assigns (OVar.new [4]) [(.one (.slice (some 0) (some 2) none), "a", [2]),
      (.one (.slice (some 1) (some 3) none), "b", [2]), (.one (.int 2), "c", [1]),
      (.one (.int 3), "d", [1])]).tgt x out).toOption.map (fun r => (r 0, r 1, r 2, r 3)) =
    some (x "a" 0, x "b" 0, x "c" 0, x "d" 0) := by
  have e : (assigns (OVar.new [4]) [(.one (.slice (some 0) (some 2) none), "a", [2]),
      (.one (.slice (some 1) (some 3) none), "b", [2]), (.one (.int 2), "c", [1]),
      (.one (.int 3), "d", [1])]).tgt = [("a", [2], [0, 1]), ("b", [2], [1, 2]), ("c", [1], [2]), ("d", [1], [3])] := by
    decide
  rw [e]
  rfl

end OM

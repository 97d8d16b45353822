import Verif.Spec.Lifetimes
import Mathlib.Tactic.Abel

/-!
# Proofs on lifetimes: ownership is threaded through all computations
-/

namespace Tulip.Lifetimes

/-- Whoever owns `own` and borrows `ext` can run `m`, and owns a collection with `Q` afterwards; other objects are left alone. -/
def Triple {α : Type} (ext own : Multiset Addr) (m : Mem α) (Q : α → Multiset Addr → Prop) : Prop :=
  ∀ h : Heap, h.WF → (∀ a ∈ ext, a ∈ h.live) → own.Nodup → (∀ a ∈ own, a ∈ h.live) → (∀ a ∈ ext, a ∉ own) →
    ∃ x h' own', m h = some (x, h') ∧ h'.WF ∧ h.next ≤ h'.next ∧ own'.Nodup ∧ (∀ a ∈ own', a ∈ own ∨ h.next ≤ a) ∧
      (∀ a, a ∈ h'.live ↔ (a ∈ h.live ∧ a ∉ own) ∨ a ∈ own') ∧ Q x own'

section
variable {α β : Type} {ext own : Multiset Addr}

theorem Triple.pure {x : α} {Q : α → Multiset Addr → Prop} (h : Q x own) : Triple ext own (pure x) Q := by
  intro H hw _ hn hl _
  refine ⟨x, H, own, rfl, hw, le_rfl, hn, fun a ha => .inl ha, fun a => ?_, h⟩
  constructor
  · intro ha
    by_cases h : a ∈ own
    · exact .inr h
    · exact .inl ⟨ha, h⟩
  · rintro (h | h)
    · exact h.1
    · exact hl a h

theorem Triple.bind {m : Mem α} {f : α → Mem β} {Q1 : α → Multiset Addr → Prop} {Q : β → Multiset Addr → Prop}
    (h1 : Triple ext own m Q1) (h2 : ∀ x o, Q1 x o → Triple ext o (f x) Q) : Triple ext own (m >>= f) Q := by
  intro H hw he hn hl hd
  obtain ⟨x, H1, o1, e1, w1, n1, d1, s1, l1, q1⟩ := h1 H hw he hn hl hd
  have he1 : ∀ a ∈ ext, a ∈ H1.live := fun a ha => (l1 a).mpr (.inl ⟨he a ha, hd a ha⟩)
  have hd1 : ∀ a ∈ ext, a ∉ o1 := by
    intro a ha ho
    rcases s1 a ho with h | h
    · exact hd a ha h
    · exact absurd (hw a (he a ha)) (not_lt.mpr h)
  obtain ⟨y, H2, o2, e2, w2, n2, d2, s2, l2, q2⟩ := h2 x o1 q1 H1 w1 he1 d1 (fun a ha => (l1 a).mpr (.inr ha)) hd1
  refine ⟨y, H2, o2, ?_, w2, le_trans n1 n2, d2, ?_, ?_, q2⟩
  · show (m H).bind (fun p => f p.1 p.2) = _
    rw [e1]
    exact e2
  · intro a ha
    rcases s2 a ha with h | h
    · exact s1 a h
    · exact .inr (le_trans n1 h)
  · intro a
    rw [l2, l1]
    constructor
    · rintro (⟨h | h, h'⟩ | h)
      · exact .inl h
      · exact absurd h h'
      · exact .inr h
    · rintro (h | h)
      · refine .inl ⟨.inl h, fun ho => ?_⟩
        rcases s1 a ho with h' | h'
        · exact h.2 h'
        · exact absurd (hw a h.1) (not_lt.mpr h')
      · exact .inr h

theorem Triple.mono {m : Mem α} {Q Q' : α → Multiset Addr → Prop} (h : Triple ext own m Q) (hq : ∀ x o, Q x o → Q' x o) : Triple ext own m Q' := by
  intro H hw he hn hl hd
  obtain ⟨x, H1, o1, e1, w1, n1, d1, s1, l1, q1⟩ := h H hw he hn hl hd
  exact ⟨x, H1, o1, e1, w1, n1, d1, s1, l1, hq x o1 q1⟩

theorem Triple.conv {own' : Multiset Addr} {m : Mem α} {Q : α → Multiset Addr → Prop} (e : own = own') (h : Triple ext own' m Q) : Triple ext own m Q :=
  e ▸ h

theorem new_triple : Triple ext own new (fun a o => o = {a} + own) := by
  intro H hw _ hn hl _
  have fresh : H.next ∉ own := fun h => absurd (hw _ (hl _ h)) (lt_irrefl _)
  refine ⟨H.next, ⟨H.next + 1, insert H.next H.live⟩, {H.next} + own, rfl, ?_, Nat.le_succ _, ?_, ?_, ?_, rfl⟩
  · intro a ha
    show a < H.next + 1
    rcases Finset.mem_insert.mp ha with rfl | ha
    · exact Nat.lt_succ_self _
    · exact Nat.lt_succ_of_lt (hw a ha)
  · rw [Multiset.singleton_add]
    exact Multiset.nodup_cons.mpr ⟨fresh, hn⟩
  · intro a ha
    rcases Multiset.mem_add.mp ha with h | h
    · exact .inr (le_of_eq (Multiset.mem_singleton.mp h).symm)
    · exact .inl h
  · intro a
    show a ∈ insert H.next H.live ↔ _
    rw [Finset.mem_insert, Multiset.mem_add, Multiset.mem_singleton]
    constructor
    · rintro (h | h)
      · exact .inr (.inl h)
      · by_cases ho : a ∈ own
        · exact .inr (.inr ho)
        · exact .inl ⟨h, ho⟩
    · rintro (h | h | h)
      · exact .inr h.1
      · exact .inl h
      · exact .inr (hl a h)

theorem delete_triple {a : Addr} : Triple ext ({a} + own) (delete a) (fun _ o => o = own) := by
  intro H hw _ hn hl _
  rw [Multiset.singleton_add] at hn hl
  have ha : a ∈ H.live := hl a (Multiset.mem_cons_self a own)
  obtain ⟨hao, hno⟩ := Multiset.nodup_cons.mp hn
  refine ⟨(), ⟨H.next, H.live.erase a⟩, own, if_pos ha, fun b hb => hw b (Finset.mem_of_mem_erase hb), le_rfl, hno, ?_, ?_, rfl⟩
  · exact fun b hb => .inl (Multiset.mem_add.mpr (.inr hb))
  · intro b
    show b ∈ H.live.erase a ↔ _
    rw [Finset.mem_erase, Multiset.mem_add, Multiset.mem_singleton]
    constructor
    · rintro ⟨h1, h2⟩
      by_cases ho : b ∈ own
      · exact .inr ho
      · exact .inl ⟨h2, fun h => h.elim h1 ho⟩
    · rintro (⟨h1, h2⟩ | h)
      · exact ⟨fun e => h2 (.inl e), h1⟩
      · refine ⟨?_, hl b (Multiset.mem_cons_of_mem h)⟩
        rintro rfl
        exact hao h

theorem touch_triple {a : Addr} (ha : a ∈ ext ∨ a ∈ own) : Triple ext own (touch a) (fun _ o => o = own) := by
  intro H hw he hn hl hd
  have : a ∈ H.live := ha.elim (he a) (hl a)
  obtain ⟨_, H', o, e, r⟩ := Triple.pure (x := ()) (Q := fun _ o => o = own) rfl H hw he hn hl hd
  refine ⟨(), H', o, ?_, r⟩
  show (if a ∈ H.live then some ((), H) else none) = _
  rw [if_pos this]
  exact e

theorem touchAll_triple {l : List Addr} (hl : ∀ a ∈ l, a ∈ ext ∨ a ∈ own) : Triple ext own (touchAll l) (fun _ o => o = own) := by
  induction l with
  | nil => exact Triple.pure rfl
  | cons a l ih =>
    refine Triple.bind (touch_triple (hl a (List.mem_cons_self ..))) ?_
    rintro _ _ rfl
    exact ih fun b hb => hl b (List.mem_cons_of_mem _ hb)

theorem deleteAll_triple {l : List Addr} : Triple ext ((l : Multiset Addr) + own) (deleteAll l) (fun _ o => o = own) := by
  induction l with
  | nil => exact Triple.pure (by simp)
  | cons a l ih =>
    refine Triple.conv (own' := {a} + ((l : Multiset Addr) + own)) ?_ (Triple.bind delete_triple ?_)
    · rw [← Multiset.cons_coe, ← Multiset.singleton_add]
      abel
    · rintro _ _ rfl
      exact ih

theorem Space.new_triple {mesh : Addr} (hm : mesh ∈ ext ∨ mesh ∈ own) :
    Triple ext own (Space.new mesh) (fun s o => s.mesh = mesh ∧ o = s.owned + own) := by
  unfold Space.new
  refine Triple.bind Lifetimes.new_triple ?_
  rintro fec _ rfl
  refine Triple.bind (touch_triple (hm.imp id fun h => Multiset.mem_add.mpr (.inr h))) ?_
  rintro _ _ rfl
  refine Triple.bind Lifetimes.new_triple ?_
  rintro obj _ rfl
  refine Triple.pure ⟨rfl, ?_⟩
  unfold Space.owned
  abel

theorem Space.delete_triple {s : Space} : Triple ext (s.owned + own) s.delete (fun _ o => o = own) := by
  unfold Space.delete Space.owned
  refine Triple.conv (own' := {s.fec} + ({s.obj} + own)) (by abel) (Triple.bind Lifetimes.delete_triple ?_)
  rintro _ _ rfl
  exact Lifetimes.delete_triple

theorem Form.delete_triple {f : Form} : Triple ext (f.owned + own) f.delete (fun _ o => o = own) := by
  unfold Form.delete Form.owned
  refine Triple.conv (own' := (f.integrators.map Integrator.obj : List Addr) + ({f.obj} + own)) (by abel) (Triple.bind deleteAll_triple ?_)
  rintro _ _ rfl
  exact Lifetimes.delete_triple

theorem Form.new_triple {ss : List Space} (h : ∀ s ∈ ss, s.obj ∈ ext ∨ s.obj ∈ own) :
    Triple ext own (Form.new ss) (fun f o => f.spaces = ss ∧ f.integrators = [] ∧ o = f.owned + own) := by
  unfold Form.new
  refine Triple.bind (touchAll_triple ?_) ?_
  · intro a ha
    obtain ⟨s, hs, rfl⟩ := List.mem_map.mp ha
    exact h s hs
  rintro _ _ rfl
  refine Triple.bind Lifetimes.new_triple ?_
  rintro obj _ rfl
  refine Triple.pure ⟨rfl, rfl, ?_⟩
  simp [Form.owned]

theorem Form.add_triple {f : Form} {coefs : List Addr} :
    Triple ext (f.owned + own) (f.add coefs)
      (fun g o => g.spaces = f.spaces ∧ (∃ i, g.integrators = f.integrators ++ [⟨i, coefs⟩]) ∧ o = g.owned + own) := by
  unfold Form.add
  refine Triple.bind Lifetimes.new_triple ?_
  rintro i _ rfl
  refine Triple.bind (touch_triple (.inr ?_)) ?_
  · simp [Form.owned]
  rintro _ _ rfl
  refine Triple.pure ⟨rfl, ⟨i, rfl⟩, ?_⟩
  unfold Form.owned
  dsimp only
  rw [List.map_append, ← Multiset.coe_add]
  show {i} + (_ + {f.obj} + own) = _ + (([i] : List Addr) : Multiset Addr) + {f.obj} + own
  rw [Multiset.coe_singleton]
  abel

theorem Form.assemble_triple {f : Form} (ho : ∀ a ∈ f.owned, a ∈ ext ∨ a ∈ own) (hs : ∀ s ∈ f.spaces, ∀ a ∈ s.uses, a ∈ ext ∨ a ∈ own)
    (hi : ∀ i ∈ f.integrators, ∀ a ∈ i.coefs, a ∈ ext ∨ a ∈ own) : Triple ext own f.assemble (fun _ o => o = own) := by
  unfold Form.assemble
  refine Triple.bind (touch_triple (ho _ (by simp [Form.owned]))) ?_
  rintro _ _ rfl
  refine Triple.bind (touchAll_triple ?_) ?_
  · intro a ha
    obtain ⟨s, h1, h2⟩ := List.mem_flatMap.mp ha
    exact hs s h1 a h2
  rintro _ _ rfl
  refine touchAll_triple ?_
  intro a ha
  obtain ⟨i, h1, h2⟩ := List.mem_flatMap.mp ha
  rcases List.mem_cons.mp h2 with rfl | h2
  · exact ho _ (Multiset.mem_add.mpr (.inl (Multiset.mem_coe.mpr (List.mem_map_of_mem h1))))
  · exact hi i h1 a h2

theorem newField_triple {s : Space} (h : s.obj ∈ ext ∨ s.obj ∈ own) : Triple ext own (newField s) (fun a o => o = {a} + own) := by
  unfold newField
  refine Triple.bind (touch_triple h) ?_
  rintro _ _ rfl
  exact Lifetimes.new_triple

/-- all is on this mesh -/
structure Solver.On (s : Solver) (m : Addr) : Prop where
  mesh : s.mesh = m
  h1 : s.h1.mesh = m
  hcurl : s.hcurl.mesh = m
  hdiv : s.hdiv.mesh = m

theorem Solver.build_triple {mesh : Addr} {h1 hcurl hdiv l2 : Space} {eps : Addr} {f : Form} (hm : mesh ∈ ext ∨ mesh ∈ own)
    (e1 : h1.mesh = mesh) (e2 : hcurl.mesh = mesh) (e3 : hdiv.mesh = mesh) (hf : f.spaces = [h1])
    (hc : ∀ i ∈ f.integrators, ∀ a ∈ i.coefs, a = eps ∨ a ∈ own) :
    Triple ext (f.owned + ({eps} + (l2.owned + (hdiv.owned + (hcurl.owned + (h1.owned + own)))))) (Solver.build mesh h1 hcurl hdiv l2 eps f)
      (fun s o => s.On mesh ∧ o = s.owned + own) := by
  unfold Solver.build
  refine Triple.bind (Form.new_triple ?_) ?_
  · simp [Space.owned]
  rintro hDivMass _ ⟨s1, i1, rfl⟩
  refine Triple.bind Form.add_triple ?_
  rintro hDivMass' _ ⟨s1', ⟨j1, i1'⟩, rfl⟩
  refine Triple.bind (Form.new_triple ?_) ?_
  · simp [Space.owned]
  rintro h1SurfMass _ ⟨s2, i2, rfl⟩
  refine Triple.bind Form.add_triple ?_
  rintro h1SurfMass' _ ⟨s2', ⟨j2, i2'⟩, rfl⟩
  refine Triple.bind (Form.new_triple ?_) ?_
  · simp [Space.owned]
  rintro hCurlHDivEps _ ⟨s3, i3, rfl⟩
  refine Triple.bind Form.add_triple ?_
  rintro hCurlHDivEps' _ ⟨s3', ⟨j3, i3'⟩, rfl⟩
  refine Triple.bind (Form.new_triple ?_) ?_
  · simp [Space.owned]
  rintro rhod _ ⟨s4, i4, rfl⟩
  refine Triple.bind (Form.new_triple ?_) ?_
  · simp [Space.owned]
  rintro grad _ ⟨s5, i5, rfl⟩
  refine Triple.bind Form.add_triple ?_
  rintro grad' _ ⟨s5', ⟨j5, i5'⟩, rfl⟩
  refine Triple.bind (newField_triple ?_) ?_
  · simp [Space.owned]
  rintro phi _ rfl
  refine Triple.bind (newField_triple ?_) ?_
  · simp [Space.owned]
  rintro d _ rfl
  refine Triple.bind (newField_triple ?_) ?_
  · simp [Space.owned]
  rintro e _ rfl
  refine Triple.bind (newField_triple ?_) ?_
  · simp [Space.owned]
  rintro sigma _ rfl
  rw [s1] at s1'
  rw [s2] at s2'
  rw [s3] at s3'
  rw [s5] at s5'
  rw [i1, List.nil_append] at i1'
  rw [i2, List.nil_append] at i2'
  rw [i3, List.nil_append] at i3'
  rw [i5, List.nil_append] at i5'
  refine Triple.conv (own' := (Solver.mk mesh h1 hcurl hdiv l2 eps f hDivMass' h1SurfMass' hCurlHDivEps' rhod grad' phi d e sigma).owned + own)
    (by unfold Solver.owned; abel) ?_
  have use : ∀ s ∈ [h1, hcurl, hdiv], ∀ a ∈ s.uses, a ∈ ext ∨
      a ∈ (Solver.mk mesh h1 hcurl hdiv l2 eps f hDivMass' h1SurfMass' hCurlHDivEps' rhod grad' phi d e sigma).owned + own := by
    intro s hs a ha
    simp only [List.mem_cons, List.not_mem_nil, or_false] at hs
    unfold Space.uses at ha
    simp only [List.mem_cons, List.not_mem_nil, or_false] at ha
    rcases ha with rfl | rfl | rfl
    · right; rcases hs with rfl | rfl | rfl <;> simp [Solver.owned, Space.owned]
    · right; rcases hs with rfl | rfl | rfl <;> simp [Solver.owned, Space.owned]
    · have : s.mesh = mesh := by rcases hs with rfl | rfl | rfl <;> assumption
      rw [this]
      exact hm.imp id fun h => Multiset.mem_add.mpr (.inr h)
  refine Triple.bind (Q1 := fun _ o => o = (Solver.mk mesh h1 hcurl hdiv l2 eps f hDivMass' h1SurfMass' hCurlHDivEps' rhod grad' phi d e sigma).owned + own) ?_ ?_
  · unfold Solver.assemble
    refine Triple.bind (Form.assemble_triple ?_ ?_ ?_) ?_
    · intro a ha; right; simp [Solver.owned, ha]
    · intro s hs; rw [hf] at hs; exact use s (by simp_all)
    · intro i hi a ha
      rcases hc i hi a ha with rfl | h
      · right; simp [Solver.owned]
      · right; exact Multiset.mem_add.mpr (.inr h)
    rintro _ _ rfl
    refine Triple.bind (Form.assemble_triple ?_ ?_ ?_) ?_
    · intro a ha; right; simp [Solver.owned, ha]
    · intro s hs; rw [s1'] at hs; exact use s (by simp_all)
    · intro i hi a ha; rw [i1'] at hi; simp_all
    rintro _ _ rfl
    refine Triple.bind (Form.assemble_triple ?_ ?_ ?_) ?_
    · intro a ha; right; simp [Solver.owned, ha]
    · intro s hs; rw [s3'] at hs; exact use s (by simp at hs ⊢; tauto)
    · intro i hi a ha; rw [i3'] at hi; right; simp_all [Solver.owned]
    rintro _ _ rfl
    refine Triple.bind (Form.assemble_triple ?_ ?_ ?_) ?_
    · intro a ha; right; simp [Solver.owned, ha]
    · intro s hs; rw [s2'] at hs; exact use s (by simp_all)
    · intro i hi a ha; rw [i2'] at hi; simp_all
    rintro _ _ rfl
    refine Triple.bind (Form.assemble_triple ?_ ?_ ?_) ?_
    · intro a ha; right; simp [Solver.owned, ha]
    · intro s hs; rw [s4] at hs; exact use s (by simp_all)
    · intro i hi a ha; rw [i4] at hi; simp_all
    rintro _ _ rfl
    refine Form.assemble_triple ?_ ?_ ?_
    · intro a ha; right; simp [Solver.owned, ha]
    · intro s hs; rw [s5'] at hs; exact use s (by simp at hs ⊢; tauto)
    · intro i hi a ha; rw [i5'] at hi; simp_all
  rintro _ _ rfl
  refine Triple.bind (Q1 := fun _ o => o = (Solver.mk mesh h1 hcurl hdiv l2 eps f hDivMass' h1SurfMass' hCurlHDivEps' rhod grad' phi d e sigma).owned + own) ?_ ?_
  · unfold Solver.applyBoundary
    refine Triple.bind (touch_triple (hm.imp id fun h => Multiset.mem_add.mpr (.inr h))) ?_
    rintro _ _ rfl
    refine Triple.bind (touch_triple (by right; simp [Solver.owned])) ?_
    rintro _ _ rfl
    exact touchAll_triple (use h1 (by simp))
  rintro _ _ rfl
  exact Triple.pure ⟨⟨rfl, e1, e2, e3⟩, rfl⟩

theorem Solver.new_triple {mesh : Addr} {isOpen : Bool} (hm : mesh ∈ ext ∨ mesh ∈ own) :
    Triple ext own (Solver.new mesh isOpen) (fun s o => s.On mesh ∧ o = s.owned + own) := by
  unfold Solver.new
  refine Triple.bind (Space.new_triple hm) ?_
  rintro h1 _ ⟨e1, rfl⟩
  refine Triple.bind (Space.new_triple (hm.imp id fun h => by simp [h])) ?_
  rintro hcurl _ ⟨e2, rfl⟩
  refine Triple.bind (Space.new_triple (hm.imp id fun h => by simp [h])) ?_
  rintro hdiv _ ⟨e3, rfl⟩
  refine Triple.bind (Space.new_triple (hm.imp id fun h => by simp [h])) ?_
  rintro l2 _ ⟨e4, rfl⟩
  refine Triple.bind (touch_triple (hm.imp id fun h => by simp [h])) ?_
  rintro _ _ rfl
  refine Triple.bind Lifetimes.new_triple ?_
  rintro eps _ rfl
  refine Triple.bind (Form.new_triple ?_) ?_
  · simp [Space.owned]
  rintro f _ ⟨s1, i1, rfl⟩
  refine Triple.bind Form.add_triple ?_
  rintro f' _ ⟨s1', ⟨j, i1'⟩, rfl⟩
  rw [s1] at s1'
  rw [i1, List.nil_append] at i1'
  split
  · refine Triple.bind Lifetimes.new_triple ?_
    rintro c _ rfl
    refine Triple.conv (own' := f'.owned + ({eps} + (l2.owned + (hdiv.owned + (hcurl.owned + (h1.owned + ({c} + own))))))) (by abel) ?_
    refine Triple.bind Form.add_triple ?_
    rintro f2 _ ⟨s2, ⟨k, i2⟩, rfl⟩
    refine Triple.bind (Solver.build_triple (hm.imp id fun h => by simp [h]) e1 e2 e3 (s2.trans s1') ?_) ?_
    · intro i hi a ha
      rw [i2, i1'] at hi
      simp only [List.cons_append, List.nil_append, List.mem_cons, List.not_mem_nil, or_false] at hi
      rcases hi with rfl | rfl
      · exact .inl (by simpa using ha)
      · right
        have : a = c := by simpa using ha
        simp [this]
    rintro s _ ⟨ho, rfl⟩
    refine Triple.conv (own' := {c} + (s.owned + own)) (by abel) (Triple.bind Lifetimes.delete_triple ?_)
    rintro _ _ rfl
    exact Triple.pure ⟨ho, rfl⟩
  · refine Solver.build_triple hm e1 e2 e3 s1' ?_
    intro i hi a ha
    rw [i1'] at hi
    have : i = ⟨j, [eps]⟩ := by simpa using hi
    subst this
    exact .inl (by simpa using ha)

theorem Solver.delete_triple {s : Solver} : Triple ext (s.owned + own) s.delete (fun _ o => o = own) := by
  unfold Solver.delete
  refine Triple.conv (own' := {s.phi} + (s.rhod.owned + ({s.d} + ({s.e} + ({s.sigma} + (s.grad.owned + (s.divEpsGrad.owned + (s.hDivMass.owned +
    (s.hCurlHDivEps.owned + (s.h1SurfMass.owned + (s.h1.owned + (s.hcurl.owned + (s.hdiv.owned + (s.l2.owned + ({s.eps} + own)))))))))))))))
    (by unfold Solver.owned; abel) ?_
  refine Triple.bind Lifetimes.delete_triple ?_; rintro _ _ rfl
  refine Triple.bind Form.delete_triple ?_; rintro _ _ rfl
  refine Triple.bind Lifetimes.delete_triple ?_; rintro _ _ rfl
  refine Triple.bind Lifetimes.delete_triple ?_; rintro _ _ rfl
  refine Triple.bind Lifetimes.delete_triple ?_; rintro _ _ rfl
  refine Triple.bind Form.delete_triple ?_; rintro _ _ rfl
  refine Triple.bind Form.delete_triple ?_; rintro _ _ rfl
  refine Triple.bind Form.delete_triple ?_; rintro _ _ rfl
  refine Triple.bind Form.delete_triple ?_; rintro _ _ rfl
  refine Triple.bind Form.delete_triple ?_; rintro _ _ rfl
  refine Triple.bind Space.delete_triple ?_; rintro _ _ rfl
  refine Triple.bind Space.delete_triple ?_; rintro _ _ rfl
  refine Triple.bind Space.delete_triple ?_; rintro _ _ rfl
  refine Triple.bind Space.delete_triple ?_; rintro _ _ rfl
  exact Lifetimes.delete_triple

/-- the solver can be used: its objects and its mesh are at hand -/
structure Usable (ext own : Multiset Addr) (s : Solver) : Prop where
  objects : ∀ a ∈ s.owned, a ∈ ext ∨ a ∈ own
  mesh : s.mesh ∈ ext ∨ s.mesh ∈ own
  h1 : s.h1.mesh = s.mesh
  hcurl : s.hcurl.mesh = s.mesh
  hdiv : s.hdiv.mesh = s.mesh

theorem Usable.more {s : Solver} (h : Usable ext own s) (o : Multiset Addr) : Usable ext (o + own) s :=
  ⟨fun a ha => (h.objects a ha).imp id fun h => Multiset.mem_add.mpr (.inr h), h.mesh.imp id fun h => Multiset.mem_add.mpr (.inr h), h.h1, h.hcurl, h.hdiv⟩

theorem Usable.space1 {s : Solver} (h : Usable ext own s) : ∀ a ∈ s.h1.uses, a ∈ ext ∨ a ∈ own := by
  intro a ha
  unfold Space.uses at ha
  simp only [List.mem_cons, List.not_mem_nil, or_false] at ha
  rcases ha with rfl | rfl | rfl
  · exact h.objects _ (by simp [Solver.owned, Space.owned])
  · exact h.objects _ (by simp [Solver.owned, Space.owned])
  · rw [h.h1]; exact h.mesh

theorem Usable.space2 {s : Solver} (h : Usable ext own s) : ∀ a ∈ s.hcurl.uses, a ∈ ext ∨ a ∈ own := by
  intro a ha
  unfold Space.uses at ha
  simp only [List.mem_cons, List.not_mem_nil, or_false] at ha
  rcases ha with rfl | rfl | rfl
  · exact h.objects _ (by simp [Solver.owned, Space.owned])
  · exact h.objects _ (by simp [Solver.owned, Space.owned])
  · rw [h.hcurl]; exact h.mesh

theorem Usable.space3 {s : Solver} (h : Usable ext own s) : ∀ a ∈ s.hdiv.uses, a ∈ ext ∨ a ∈ own := by
  intro a ha
  unfold Space.uses at ha
  simp only [List.mem_cons, List.not_mem_nil, or_false] at ha
  rcases ha with rfl | rfl | rfl
  · exact h.objects _ (by simp [Solver.owned, Space.owned])
  · exact h.objects _ (by simp [Solver.owned, Space.owned])
  · rw [h.hdiv]; exact h.mesh

theorem Solver.applyBoundary_triple {s : Solver} (h : Usable ext own s) {f : Addr} (hf : f ∈ ext ∨ f ∈ own) :
    Triple ext own (s.applyBoundary f) (fun _ o => o = own) := by
  unfold Solver.applyBoundary
  refine Triple.bind (touch_triple h.mesh) ?_; rintro _ _ rfl
  refine Triple.bind (touch_triple hf) ?_; rintro _ _ rfl
  exact touchAll_triple h.space1

/-- objects of the solver by name -/
theorem Usable.names {s : Solver} (h : Usable ext own s) : ∀ a ∈ [s.phi, s.e, s.d, s.sigma, s.h1.obj, s.hcurl.obj, s.hdiv.obj, s.h1SurfMass.obj,
    s.rhod.obj, s.divEpsGrad.obj, s.grad.obj, s.hCurlHDivEps.obj, s.hDivMass.obj], a ∈ ext ∨ a ∈ own := by
  intro a ha
  refine h.objects a ?_
  simp only [List.mem_cons, List.not_mem_nil, or_false] at ha
  rcases ha with rfl | rfl | rfl | rfl | rfl | rfl | rfl | rfl | rfl | rfl | rfl | rfl | rfl <;> simp [Solver.owned, Space.owned, Form.owned]

theorem Solver.solve_triple {s : Solver} (h : Usable ext own s) : Triple ext own s.solve (fun _ o => o = own) := by
  have n := h.names
  unfold Solver.solve
  refine Triple.bind (touchAll_triple fun a ha => n a ?_) ?_
  · simp only [List.mem_cons, List.not_mem_nil, or_false] at ha ⊢; tauto
  rintro _ _ rfl
  refine Triple.bind (Solver.applyBoundary_triple h (n _ (by simp))) ?_; rintro _ _ rfl
  refine Triple.bind (touchAll_triple h.space1) ?_; rintro _ _ rfl
  refine Triple.bind (touchAll_triple fun a ha => n a ?_) ?_
  · simp only [List.mem_cons, List.not_mem_nil, or_false] at ha ⊢; tauto
  rintro _ _ rfl
  refine Triple.bind (touchAll_triple fun a ha => n a ?_) ?_
  · simp only [List.mem_cons, List.not_mem_nil, or_false] at ha ⊢; tauto
  rintro _ _ rfl
  refine Triple.bind (newField_triple (n _ (by simp))) ?_
  rintro ed _ rfl
  have n' := (h.more {ed}).names
  refine Triple.bind (touchAll_triple fun a ha => ?_) ?_
  · by_cases e : a = ed
    · right; simp [e]
    · exact n' a (by simp only [List.mem_cons, List.not_mem_nil, or_false] at ha ⊢; tauto)
  rintro _ _ rfl
  refine Triple.bind (touchAll_triple fun a ha => ?_) ?_
  · by_cases e : a = ed
    · right; simp [e]
    · exact n' a (by simp only [List.mem_cons, List.not_mem_nil, or_false] at ha ⊢; tauto)
  rintro _ _ rfl
  exact Lifetimes.delete_triple

theorem Solver.setNeumann_triple {s : Solver} (h : Usable ext own s) : Triple ext own s.setNeumann (fun _ o => o = own) := by
  unfold Solver.setNeumann
  refine Triple.bind (touch_triple h.mesh) ?_; rintro _ _ rfl
  refine Triple.bind (touch_triple (h.names _ (by simp))) ?_; rintro _ _ rfl
  exact touchAll_triple h.space1

theorem clone_triple {s : Space} {f : Addr} (hs : s.obj ∈ ext ∨ s.obj ∈ own) (hf : f ∈ ext ∨ f ∈ own) :
    Triple ext own (clone s f) (fun a o => o = {a} + own) := by
  unfold clone
  refine Triple.bind (newField_triple hs) ?_
  rintro r _ rfl
  refine Triple.bind (touch_triple (hf.imp id fun h => Multiset.mem_add.mpr (.inr h))) ?_
  rintro _ _ rfl
  exact Triple.pure rfl

theorem Solver.getSolution_triple {s : Solver} (h : Usable ext own s) : Triple ext own s.getSolution (fun t o => o = t.owned + own) := by
  unfold Solver.getSolution
  refine Triple.bind (clone_triple (h.names _ (by simp)) (h.names _ (by simp))) ?_
  rintro phi _ rfl
  have h := h.more {phi}
  refine Triple.bind (clone_triple (h.names _ (by simp)) (h.names _ (by simp))) ?_
  rintro e _ rfl
  have h := h.more {e}
  refine Triple.bind (clone_triple (h.names _ (by simp)) (h.names _ (by simp))) ?_
  rintro d _ rfl
  refine Triple.pure ?_
  unfold Solution.owned
  abel

theorem Solver.setSolution_triple {s : Solver} (h : Usable ext own s) {t : Solution} (ht : ∀ a ∈ t.owned, a ∈ ext ∨ a ∈ own) :
    Triple ext own (s.setSolution t) (fun _ o => o = own) := by
  unfold Solver.setSolution
  refine touchAll_triple fun a ha => ?_
  simp only [List.mem_cons, List.not_mem_nil, or_false] at ha
  rcases ha with rfl | rfl | rfl | rfl | rfl | rfl
  · exact h.names _ (by simp)
  · exact ht _ (by simp [Solution.owned])
  · exact h.names _ (by simp)
  · exact ht _ (by simp [Solution.owned])
  · exact h.names _ (by simp)
  · exact ht _ (by simp [Solution.owned])

theorem Solution.delete_triple {t : Solution} : Triple ext (t.owned + own) t.delete (fun _ o => o = own) := by
  unfold Solution.delete
  refine Triple.conv (own' := (([t.d, t.e, t.phi] : List Addr) : Multiset Addr) + own) ?_ deleteAll_triple
  unfold Solution.owned
  rw [← Multiset.cons_coe, ← Multiset.cons_coe, Multiset.coe_singleton, ← Multiset.singleton_add, ← Multiset.singleton_add]
  abel

theorem buildIntegral_triple {s : Space} (hs : ∀ a ∈ s.uses, a ∈ ext ∨ a ∈ own) :
    Triple ext own (buildIntegral s) (fun f o => o = f.owned + own) := by
  unfold buildIntegral
  refine Triple.bind Lifetimes.new_triple ?_
  rintro c _ rfl
  have more : ∀ o : Multiset Addr, ∀ a ∈ s.uses, a ∈ ext ∨ a ∈ o + own := fun o a ha => (hs a ha).imp id fun h => Multiset.mem_add.mpr (.inr h)
  refine Triple.bind (Form.new_triple ?_) ?_
  · intro x hx
    rw [List.mem_singleton.mp hx]
    exact more _ _ (by simp [Space.uses])
  rintro f _ ⟨s1, i1, rfl⟩
  refine Triple.bind Form.add_triple ?_
  rintro f' _ ⟨s2, ⟨j, i2⟩, rfl⟩
  refine Triple.bind (Form.assemble_triple ?_ ?_ ?_) ?_
  · intro a ha; right; simp [ha]
  · intro x hx a ha
    rw [s2, s1] at hx
    rw [List.mem_singleton.mp hx] at ha
    rw [← add_assoc]
    exact more _ a ha
  · intro i hi a ha
    rw [i2, i1, List.nil_append] at hi
    rw [List.mem_singleton.mp hi] at ha
    right
    rw [List.mem_singleton.mp ha]
    simp
  rintro _ _ rfl
  refine Triple.conv (own' := {c} + (f'.owned + own)) (by abel) (Triple.bind Lifetimes.delete_triple ?_)
  rintro _ _ rfl
  exact Triple.pure rfl

theorem Solver.query_triple {s : Solver} (h : Usable ext own s) (q : Query) : Triple ext own (s.query q) (fun _ o => o = own) := by
  have int : Triple ext own (integrate s.hdiv s.d) (fun _ o => o = own) := by
    unfold integrate
    refine Triple.bind (buildIntegral_triple h.space3) ?_
    rintro f _ rfl
    refine Triple.bind (touchAll_triple fun a ha => ?_) ?_
    · simp only [List.mem_cons, List.not_mem_nil, or_false] at ha
      rcases ha with rfl | rfl
      · right; simp [Form.owned]
      · exact (h.more _).names _ (by simp)
    rintro _ _ rfl
    exact Form.delete_triple
  cases q with
  | charge => exact int
  | moment => exact int
  | average =>
    refine Triple.bind (buildIntegral_triple h.space1) ?_
    rintro f _ rfl
    refine Triple.bind (newField_triple ((h.more _).names _ (by simp))) ?_
    rintro ones _ rfl
    refine Triple.bind (touchAll_triple fun a ha => ?_) ?_
    · simp only [List.mem_cons, List.not_mem_nil, or_false] at ha
      rcases ha with rfl | rfl | rfl
      · right; simp [Form.owned]
      · exact ((h.more _).more _).names _ (by simp)
      · right; simp
    rintro _ _ rfl
    refine Triple.bind Lifetimes.delete_triple ?_
    rintro _ _ rfl
    exact Form.delete_triple
  | energy =>
    refine Triple.bind (touch_triple h.mesh) ?_
    rintro _ _ rfl
    refine Triple.bind (Form.new_triple ?_) ?_
    · intro x hx
      rw [List.mem_singleton.mp hx]
      exact h.names _ (by simp)
    rintro f _ ⟨s1, i1, rfl⟩
    refine Triple.bind Form.add_triple ?_
    rintro f' _ ⟨s2, ⟨j, i2⟩, rfl⟩
    refine Triple.bind (Form.assemble_triple ?_ ?_ ?_) ?_
    · intro a ha; right; simp [ha]
    · intro x hx a ha
      rw [s2, s1] at hx
      rw [List.mem_singleton.mp hx] at ha
      exact (h.more _).space2 a ha
    · intro i hi a ha
      rw [i2, i1, List.nil_append] at hi
      rw [List.mem_singleton.mp hi] at ha
      cases ha
    rintro _ _ rfl
    refine Triple.bind (touch_triple ((h.more _).names _ (by simp))) ?_
    rintro _ _ rfl
    refine Triple.bind (newField_triple ((h.more _).names _ (by simp))) ?_
    rintro aux _ rfl
    refine Triple.bind (touchAll_triple fun a ha => ?_) ?_
    · simp only [List.mem_cons, List.not_mem_nil, or_false] at ha
      rcases ha with rfl | rfl | rfl
      · right; simp [Form.owned]
      · exact ((h.more _).more _).names _ (by simp)
      · right; simp
    rintro _ _ rfl
    refine Triple.bind Lifetimes.delete_triple ?_
    rintro _ _ rfl
    exact Form.delete_triple
  | «export» =>
    refine Triple.bind (touchAll_triple fun a ha => ?_) ?_
    · simp only [List.mem_cons, List.not_mem_nil, or_false] at ha
      rcases ha with rfl | rfl | rfl | rfl
      · exact h.mesh
      · exact h.names _ (by simp)
      · exact h.names _ (by simp)
      · exact h.names _ (by simp)
    rintro _ _ rfl
    refine touchAll_triple fun a ha => ?_
    rcases List.mem_append.mp ha with ha | ha
    · rcases List.mem_append.mp ha with ha | ha
      · exact h.space1 a ha
      · exact h.space3 a ha
    · exact h.space2 a ha

theorem sum_set {α : Type} (owned : α → Multiset Addr) {l : List (Option α)} {i : Nat} {x : α} (h : l[i]? = some (some x)) (y : Option α) :
    (l.map (ownedBy owned)).sum + ownedBy owned y = owned x + ((l.set i y).map (ownedBy owned)).sum := by
  induction l generalizing i with
  | nil => cases h
  | cons a l ih =>
    cases i with
    | zero =>
      have : a = some x := by simpa using h
      subst this
      show owned x + _ + _ = owned x + (ownedBy owned y + _)
      abel
    | succ i =>
      have := ih (i := i) (by simpa using h)
      rw [List.set_cons_succ, List.map_cons, List.map_cons, List.sum_cons, List.sum_cons, add_assoc, this]
      abel

theorem sum_mem {α : Type} (owned : α → Multiset Addr) {l : List (Option α)} {i : Nat} {x : α} (h : l[i]? = some (some x)) :
    ∀ a ∈ owned x, a ∈ (l.map (ownedBy owned)).sum := by
  intro a ha
  have := sum_set owned h none
  rw [show ownedBy owned none = 0 from rfl, add_zero] at this
  rw [this]
  exact Multiset.mem_add.mpr (.inl ha)

/-- the solver, if it is there, is on this mesh -/
def Client.On (c : Client) (mesh : Addr) : Prop := ∀ s, c.solver = some s → s.On mesh

theorem Client.usable {mesh : Addr} {c : Client} (h : c.On mesh) {s : Solver} (e : c.solver = some s) (hm : mesh ∈ ext) : Usable ext c.owned s := by
  have o := h s e
  refine ⟨fun a ha => .inr ?_, .inl (o.mesh ▸ hm), o.h1.trans o.mesh.symm, o.hcurl.trans o.mesh.symm, o.hdiv.trans o.mesh.symm⟩
  unfold Client.owned
  rw [e]
  exact Multiset.mem_add.mpr (.inl ha)

theorem Client.step_triple {mesh : Addr} {c : Client} (h : c.On mesh) (op : SolverCall) (hm : mesh ∈ ext) :
    Triple ext c.owned (c.step op) (fun c' o => c'.On mesh ∧ o = c'.owned) := by
  have stay : Triple ext c.owned (pure c) (fun c' o => c'.On mesh ∧ o = c'.owned) := Triple.pure ⟨h, rfl⟩
  have use : ∀ {m : Mem Unit}, Triple ext c.owned m (fun _ o => o = c.owned) →
      Triple ext c.owned (do m; pure c) (fun c' o => c'.On mesh ∧ o = c'.owned) := by
    intro m hm
    refine Triple.bind hm ?_
    rintro _ _ rfl
    exact stay
  unfold Client.step
  cases op with
  | solve =>
    dsimp only
    split
    · next s e => exact use (Solver.solve_triple (Client.usable h e hm))
    · exact stay
  | setDirichlet => exact stay
  | setNeumann =>
    dsimp only
    split
    · next s e => exact use (Solver.setNeumann_triple (Client.usable h e hm))
    · exact stay
  | getSolution =>
    dsimp only
    split
    · next s e =>
      refine Triple.bind (Solver.getSolution_triple (Client.usable h e hm)) ?_
      rintro t _ rfl
      refine Triple.pure ⟨h, ?_⟩
      unfold Client.owned
      dsimp only
      rw [List.map_append, List.sum_append]
      show t.owned + _ = _ + (_ + (t.owned + 0))
      abel
    · exact stay
  | setSolution i =>
    dsimp only
    split
    · next s t e e' =>
      refine use (Solver.setSolution_triple (Client.usable h e hm) fun a ha => .inr ?_)
      exact Multiset.mem_add.mpr (.inr (sum_mem Solution.owned e' a ha))
    · exact stay
  | query q =>
    dsimp only
    split
    · next s e => exact use (Solver.query_triple (Client.usable h e hm) q)
    · exact stay
  | drop i =>
    dsimp only
    split
    · next t e =>
      have := sum_set Solution.owned e none
      rw [show ownedBy Solution.owned none = 0 from rfl, add_zero] at this
      refine Triple.conv (own' := t.owned + Client.owned { c with solutions := c.solutions.set i none }) ?_ (Triple.bind Solution.delete_triple ?_)
      · unfold Client.owned
        rw [this]
        abel
      rintro _ _ rfl
      exact Triple.pure ⟨h, rfl⟩
    · exact stay
  | destroy =>
    dsimp only
    split
    · next s e =>
      refine Triple.conv (own' := s.owned + Client.owned { c with solver := none }) ?_ (Triple.bind Solver.delete_triple ?_)
      · unfold Client.owned
        rw [e]
        show s.owned + _ = s.owned + (0 + _)
        abel
      rintro _ _ rfl
      exact Triple.pure ⟨(fun s e => by cases e), rfl⟩
    · exact stay

theorem Client.run_triple {mesh : Addr} {c : Client} (h : c.On mesh) (ops : List SolverCall) (hm : mesh ∈ ext) :
    Triple ext c.owned (c.run ops) (fun c' o => o = c'.owned) := by
  induction ops generalizing c with
  | nil => exact Triple.pure rfl
  | cons op ops ih =>
    refine Triple.bind (Client.step_triple h op hm) ?_
    rintro c' _ ⟨h', rfl⟩
    exact ih h'

theorem client_triple {mesh : Addr} (isOpen : Bool) (ops : List SolverCall) (hm : mesh ∈ ext) :
    Triple ext 0 (client mesh isOpen ops) (fun c o => o = c.owned) := by
  unfold client
  refine Triple.bind (Solver.new_triple (.inl hm)) ?_
  rintro s _ ⟨ho, rfl⟩
  refine Triple.conv (own' := Client.owned ⟨some s, []⟩) ?_ (Client.run_triple (fun _ e => Option.some.inj e ▸ ho) ops hm)
  unfold Client.owned
  simp [ownedBy]

/-- Computations that start without owning anything. -/
theorem Triple.keeps {m : Mem α} {owned : α → Multiset Addr} {Q : α → Prop} (ht : Triple ext 0 m (fun x o => o = owned x ∧ Q x)) {h : Heap} (hw : h.WF)
    (he : ∀ a ∈ ext, a ∈ h.live) : Keeps h m owned Q := by
  obtain ⟨x, h', o, e, _, _, hn, hs, hl, rfl, hq⟩ := ht h hw he Multiset.nodup_zero (fun a ha => absurd ha (Multiset.notMem_zero a))
    (fun a _ => Multiset.notMem_zero a)
  refine ⟨x, h', e, fun a => ?_, hn, fun a ha hl => ?_, hq⟩
  · rw [hl a]
    constructor
    · rintro (h | h)
      · exact .inl h.1
      · exact .inr h
    · rintro (h | h)
      · exact .inl ⟨h, Multiset.notMem_zero a⟩
      · exact .inr h
  · rcases hs a ha with h | h
    · exact Multiset.notMem_zero a h
    · exact absurd (hw a hl) (not_lt.mpr h)

theorem deleteAll_solutions {ts : List Solution} :
    Triple ext ((ts.map Solution.owned).sum + own) (deleteAll (ts.flatMap (fun t => [t.d, t.e, t.phi]))) (fun _ o => o = own) := by
  refine Triple.conv (own' := ((ts.flatMap (fun t => [t.d, t.e, t.phi]) : List Addr) : Multiset Addr) + own) ?_ deleteAll_triple
  congr 1
  induction ts with
  | nil => rfl
  | cons t ts ih =>
    rw [List.map_cons, List.sum_cons, ih, List.flatMap_cons, ← Multiset.coe_add]
    congr 1
    unfold Solution.owned
    rw [← Multiset.cons_coe, ← Multiset.cons_coe, Multiset.coe_singleton, ← Multiset.singleton_add, ← Multiset.singleton_add]
    abel

theorem Problem.delete_triple {p : Problem} : Triple ext (p.owned + own) p.delete (fun _ o => o = own) := by
  unfold Problem.delete Problem.owned
  refine Triple.conv (own' := (p.solutions.map Solution.owned).sum + (p.solver.owned + ({p.obj} + own))) (by abel) ?_
  refine Triple.bind deleteAll_solutions ?_; rintro _ _ rfl
  refine Triple.bind Solver.delete_triple ?_; rintro _ _ rfl
  exact Lifetimes.delete_triple

theorem solveEach_triple {s : Solver} (h : Usable ext own s) (n : Nat) :
    Triple ext own (solveEach s n) (fun ts o => o = (ts.map Solution.owned).sum + own) := by
  induction n generalizing own with
  | zero => exact Triple.pure (by simp)
  | succ n ih =>
    unfold solveEach
    refine Triple.bind (Solver.solve_triple h) ?_; rintro _ _ rfl
    refine Triple.bind (Solver.query_triple h _) ?_; rintro _ _ rfl
    refine Triple.bind (Solver.getSolution_triple h) ?_; rintro t _ rfl
    refine Triple.bind (ih (h.more _)) ?_; rintro ts _ rfl
    refine Triple.pure ?_
    rw [List.map_cons, List.sum_cons]
    abel

theorem Solver.On.usable {s : Solver} {mesh : Addr} (h : s.On mesh) (hm : mesh ∈ ext ∨ mesh ∈ own) : Usable ext (s.owned + own) s :=
  ⟨fun _ ha => .inr (Multiset.mem_add.mpr (.inl ha)), h.mesh ▸ hm.imp id (fun h => Multiset.mem_add.mpr (.inr h)), h.h1.trans h.mesh.symm,
    h.hcurl.trans h.mesh.symm, h.hdiv.trans h.mesh.symm⟩

theorem solveForAll_triple {mesh : Addr} {isOpen : Bool} {n : Nat} (f : Fate) (hm : mesh ∈ ext ∨ mesh ∈ own) :
    Triple ext own (solveForAllConductors mesh isOpen n f)
      (fun p o => (∀ q, p = some q → q.solver.On mesh) ∧ o = ownedBy Problem.owned p + own) := by
  have go : ∀ (k : Nat) (K : Problem → Mem (Option Problem)) (Q : Option Problem → Multiset Addr → Prop),
      (∀ p : Problem, p.solver.On mesh → Triple ext (p.owned + own) (K p) Q) → Triple ext own (do
        let obj ← Lifetimes.new
        let s ← Solver.new mesh isOpen
        let ts ← solveEach s k
        K ⟨obj, s, ts⟩) Q := by
    intro k K Q hK
    refine Triple.bind Lifetimes.new_triple ?_; rintro obj _ rfl
    have hm' : mesh ∈ ext ∨ mesh ∈ {obj} + own := hm.imp id fun h => Multiset.mem_add.mpr (.inr h)
    refine Triple.bind (Solver.new_triple hm') ?_; rintro s _ ⟨hs, rfl⟩
    refine Triple.bind (solveEach_triple (hs.usable hm') k) ?_; rintro ts _ rfl
    refine Triple.conv ?_ (hK ⟨obj, s, ts⟩ hs)
    unfold Problem.owned
    abel
  cases f with
  | inputs => exact Triple.pure ⟨(fun q e => by cases e), (by simp [ownedBy])⟩
  | completes =>
    exact go n (fun p => pure (some p)) _ fun p hp => Triple.pure ⟨(fun q e => Option.some.inj e ▸ hp), rfl⟩
  | conductor k =>
    refine go k (fun p => do p.delete; pure none) _ fun p hp => ?_
    refine Triple.bind Problem.delete_triple ?_; rintro _ _ rfl
    exact Triple.pure ⟨(fun q e => by cases e), (by simp [ownedBy])⟩

/-- a driver that was not moved from, with its solvers on its mesh, or one with null pointers -/
def Driver.Ok (d : Driver) : Prop :=
  d = ⟨none, none, none⟩ ∨ ∃ m e b, d = ⟨some m, some e, some b⟩ ∧ e.solver.On m ∧ b.solver.On m

theorem Driver.new_triple (c : Setup) :
    Triple ext own (Driver.new c) (fun d o => (∀ d', d = some d' → ∃ m e b, d' = ⟨some m, some e, some b⟩ ∧ e.solver.On m ∧ b.solver.On m) ∧
      o = ownedBy Driver.owned d + own) := by
  have gone : ∀ {own : Multiset Addr} {mesh : Addr}, Triple ext ({mesh} + own) (do Lifetimes.delete mesh; pure none)
      (fun d o => (∀ d', d = some d' → ∃ m e b, d' = Driver.mk (some m) (some e) (some b) ∧ e.solver.On m ∧ b.solver.On m) ∧
        o = ownedBy Driver.owned d + own) := by
    intro own mesh
    refine Triple.bind Lifetimes.delete_triple ?_; rintro _ _ rfl
    exact Triple.pure ⟨(fun q e => by cases e), (by simp [ownedBy])⟩
  unfold Driver.new
  refine Triple.bind Lifetimes.new_triple ?_; rintro mesh _ rfl
  refine Triple.bind (touch_triple (.inr (by simp))) ?_; rintro _ _ rfl
  split
  · exact gone
  · refine Triple.bind (solveForAll_triple c.electric (.inr (by simp))) ?_
    rintro e _ ⟨he, rfl⟩
    cases e with
    | none => exact Triple.conv (by simp [ownedBy]) gone
    | some e =>
      refine Triple.bind (solveForAll_triple c.magnetic (.inr (by simp))) ?_
      rintro b _ ⟨hb, rfl⟩
      cases b with
      | none =>
        refine Triple.conv (own' := e.owned + ({mesh} + own)) (by simp [ownedBy]) (Triple.bind Problem.delete_triple ?_)
        rintro _ _ rfl
        exact gone
      | some b =>
        refine Triple.pure ⟨fun d' ed => ⟨mesh, e, b, (Option.some.inj ed).symm, he e rfl, hb b rfl⟩, ?_⟩
        show b.owned + (e.owned + ({mesh} + own)) = {mesh} + e.owned + b.owned + own
        abel

theorem release_triple {p : Option Addr} : Triple ext (ownedBy (fun a => ({a} : Multiset Addr)) p + own) (release p) (fun _ o => o = own) := by
  cases p with
  | none => exact Triple.pure (by simp [ownedBy])
  | some a => exact Lifetimes.delete_triple

theorem releaseProblem_triple {p : Option Problem} : Triple ext (ownedBy Problem.owned p + own) (releaseProblem p) (fun _ o => o = own) := by
  cases p with
  | none => exact Triple.pure (by simp [ownedBy])
  | some p => exact Problem.delete_triple

theorem Driver.delete_triple {d : Driver} : Triple ext (d.owned + own) d.delete (fun _ o => o = own) := by
  unfold Driver.delete Driver.owned
  refine Triple.conv (own' := ownedBy Problem.owned d.magnetic + (ownedBy Problem.owned d.electric + (ownedBy (fun a => ({a} : Multiset Addr)) d.mesh + own)))
    (by abel) ?_
  refine Triple.bind releaseProblem_triple ?_; rintro _ _ rfl
  refine Triple.bind releaseProblem_triple ?_; rintro _ _ rfl
  exact release_triple

theorem Driver.moveAssign_triple {d : Driver} : Triple ext (d.owned + own) d.moveAssign (fun _ o => o = own) := by
  unfold Driver.moveAssign Driver.owned
  refine Triple.conv (own' := ownedBy (fun a => ({a} : Multiset Addr)) d.mesh + (ownedBy Problem.owned d.electric + (ownedBy Problem.owned d.magnetic + own)))
    (by abel) ?_
  refine Triple.bind release_triple ?_; rintro _ _ rfl
  refine Triple.bind releaseProblem_triple ?_; rintro _ _ rfl
  exact releaseProblem_triple

/-- a problem can be used -/
structure UsableProblem (ext own : Multiset Addr) (p : Problem) : Prop where
  solver : Usable ext own p.solver
  obj : p.obj ∈ ext ∨ p.obj ∈ own
  solutions : ∀ t ∈ p.solutions, ∀ a ∈ t.owned, a ∈ ext ∨ a ∈ own

theorem chargesOf_triple {s : Solver} (h : Usable ext own s) (n : Nat) : Triple ext own (chargesOf s n) (fun _ o => o = own) := by
  induction n with
  | zero => exact Triple.pure rfl
  | succ n ih =>
    unfold chargesOf
    refine Triple.bind (Solver.query_triple h _) ?_; rintro _ _ rfl
    exact ih

theorem rows_triple {s : Solver} (h : Usable ext own s) (n : Nat) {ts : List Solution} (ht : ∀ t ∈ ts, ∀ a ∈ t.owned, a ∈ ext ∨ a ∈ own) :
    Triple ext own (rows s n ts) (fun _ o => o = own) := by
  induction ts with
  | nil => exact Triple.pure rfl
  | cons t ts ih =>
    unfold rows
    refine Triple.bind (Solver.setSolution_triple h (ht t (List.mem_cons_self ..))) ?_; rintro _ _ rfl
    refine Triple.bind (chargesOf_triple h n) ?_; rintro _ _ rfl
    refine Triple.bind (Solver.query_triple h _) ?_; rintro _ _ rfl
    exact ih fun t h => ht t (List.mem_cons_of_mem _ h)

theorem generalizedC_triple {mesh : Addr} {p : Problem} (h : UsableProblem ext own p) (hm : mesh ∈ ext ∨ mesh ∈ own) (throws : Bool) :
    Triple ext own (generalizedC mesh p throws) (fun _ o => o = own) := by
  unfold generalizedC
  refine Triple.bind (touch_triple hm) ?_; rintro _ _ rfl
  split
  · exact Triple.pure rfl
  · refine Triple.bind (touch_triple h.obj) ?_; rintro _ _ rfl
    exact rows_triple h.solver _ h.solutions

theorem superpose_triple {s : Solver} (h : Usable ext own s) {ts : List Solution} (ht : ∀ t ∈ ts, ∀ a ∈ t.owned, a ∈ ext ∨ a ∈ own) :
    Triple ext own (superpose s ts) (fun _ o => o = own) := by
  induction ts with
  | nil => exact Triple.pure rfl
  | cons t ts ih =>
    unfold superpose
    refine Triple.bind (Solver.setSolution_triple h (ht t (List.mem_cons_self ..))) ?_; rintro _ _ rfl
    exact ih fun t h => ht t (List.mem_cons_of_mem _ h)

theorem repeatQuery_triple {s : Solver} (h : Usable ext own s) (q : Query) (n : Nat) : Triple ext own (fields.repeatQuery s q n) (fun _ o => o = own) := by
  induction n with
  | zero => exact Triple.pure rfl
  | succ n ih =>
    unfold fields.repeatQuery
    refine Triple.bind (Solver.query_triple h _) ?_; rintro _ _ rfl
    exact ih

theorem fields_triple {p : Problem} (h : UsableProblem ext own p) {mesh : Addr} (hm : mesh ∈ ext ∨ mesh ∈ own) (a m k : Nat) :
    Triple ext own (fields p.solver p.solutions a m mesh k) (fun _ o => o = own) := by
  induction k with
  | zero => exact Triple.pure rfl
  | succ k ih =>
    unfold fields
    refine Triple.bind (touchAll_triple fun x hx => h.solver.names x ?_) ?_
    · simp only [List.mem_cons, List.not_mem_nil, or_false] at hx ⊢; tauto
    rintro _ _ rfl
    refine Triple.bind (superpose_triple h.solver h.solutions) ?_; rintro _ _ rfl
    refine Triple.bind (Solver.query_triple h.solver _) ?_; rintro _ _ rfl
    refine Triple.bind (touch_triple hm) ?_; rintro _ _ rfl
    refine Triple.bind (repeatQuery_triple h.solver _ _) ?_; rintro _ _ rfl
    refine Triple.bind (repeatQuery_triple h.solver _ _) ?_; rintro _ _ rfl
    exact ih

theorem Problem.usable {p : Problem} {mesh : Addr} (h : p.solver.On mesh) (hp : ∀ a ∈ p.owned, a ∈ ext ∨ a ∈ own) (hm : mesh ∈ ext ∨ mesh ∈ own) :
    UsableProblem ext own p where
  solver := ⟨fun a ha => hp a (by simp [Problem.owned, ha]), h.mesh ▸ hm, h.h1.trans h.mesh.symm, h.hcurl.trans h.mesh.symm, h.hdiv.trans h.mesh.symm⟩
  obj := hp _ (by simp [Problem.owned])
  solutions := by
    intro t ht a ha
    refine hp a (Multiset.mem_add.mpr (.inr ?_))
    obtain ⟨l1, l2, e⟩ := List.append_of_mem ht
    rw [e]
    simp [ha]

theorem domains_triple {mesh : Addr} (hm : mesh ∈ ext ∨ mesh ∈ own) (cs : List (Setup × Bool)) :
    Triple ext own (domains mesh cs) (fun _ o => o = own) := by
  induction cs with
  | nil => exact Triple.pure rfl
  | cons c cs ih =>
    obtain ⟨c, throws⟩ := c
    unfold domains
    refine Triple.bind (touch_triple hm) ?_; rintro _ own rfl
    refine Triple.bind Lifetimes.new_triple ?_; rintro copy _ rfl
    refine Triple.bind (touch_triple (.inr (by simp))) ?_; rintro _ _ rfl
    refine Triple.bind (Driver.new_triple c) ?_
    rintro d _ ⟨hd, rfl⟩
    cases d with
    | none => exact Triple.conv (by simp [ownedBy]) Lifetimes.delete_triple
    | some d =>
      obtain ⟨m, e, b, rfl, he, hb⟩ := hd d rfl
      have mm : m ∈ ext ∨ m ∈ ownedBy Driver.owned (some ⟨some m, some e, some b⟩) + ({copy} + own) := .inr (by simp [ownedBy, Driver.owned])
      have ue := Problem.usable he (ext := ext) (own := ownedBy Driver.owned (some ⟨some m, some e, some b⟩) + ({copy} + own))
        (fun a ha => .inr (by simp [ownedBy, Driver.owned, ha])) mm
      have ub := Problem.usable hb (ext := ext) (own := ownedBy Driver.owned (some ⟨some m, some e, some b⟩) + ({copy} + own))
        (fun a ha => .inr (by simp [ownedBy, Driver.owned, ha])) mm
      refine Triple.bind (Q1 := fun _ o => o = ownedBy Driver.owned (some ⟨some m, some e, some b⟩) + ({copy} + own)) ?_ ?_
      · unfold Driver.matrices
        refine Triple.bind (generalizedC_triple ue mm throws) ?_; rintro _ _ rfl
        split
        · exact Triple.pure rfl
        · exact generalizedC_triple ub mm throws
      rintro _ _ rfl
      refine Triple.bind Driver.delete_triple ?_; rintro _ _ rfl
      refine Triple.bind Lifetimes.delete_triple ?_; rintro _ _ rfl
      split
      · exact Triple.pure rfl
      · exact ih

theorem Driver.query_triple {mesh : Addr} {e m : Problem} (he : UsableProblem ext own e) (hb : UsableProblem ext own m) (hm : mesh ∈ ext ∨ mesh ∈ own)
    (q : DriverQuery) : Triple ext own (Driver.query mesh e m q) (fun _ o => o = own) := by
  have pick : ∀ b : Bool, UsableProblem ext own (if b then m else e) := by
    intro b
    cases b
    · exact he
    · exact hb
  cases q with
  | generalized b throws => exact generalizedC_triple (pick b) hm throws
  | inCell b k a n =>
    refine Triple.bind (touch_triple hm) ?_; rintro _ _ rfl
    refine Triple.bind (touch_triple (pick b).obj) ?_; rintro _ _ rfl
    exact fields_triple (pick b) hm a n k
  | byDomains cs => exact domains_triple hm cs

theorem driversStep_triple {ds : List (Option Driver)} (h : ∀ d, some d ∈ ds → d.Ok) (op : DriverCall) :
    Triple ext (driversOwned ds) (driversStep ds op) (fun ds' o => (∀ d, some d ∈ ds' → d.Ok) ∧ o = driversOwned ds') := by
  have stay : Triple ext (driversOwned ds) (pure ds) (fun ds' o => (∀ d, some d ∈ ds' → d.Ok) ∧ o = driversOwned ds') := Triple.pure ⟨h, rfl⟩
  have nul : Driver.owned ⟨none, none, none⟩ = 0 := rfl
  have step0 : ∀ {l : List (Option Driver)} {i : Nat} {d : Driver} (e : l[i]? = some (some d)) (y : Option Driver), ownedBy Driver.owned y = 0 →
      driversOwned l = d.owned + driversOwned (l.set i y) := by
    intro l i d e y hy
    have := sum_set Driver.owned e y
    rw [hy, add_zero] at this
    exact this
  have app : ∀ (l : List (Option Driver)) (y : Option Driver), driversOwned (l ++ [y]) = ownedBy Driver.owned y + driversOwned l := by
    intro l y
    unfold driversOwned
    rw [List.map_append, List.sum_append, List.map_singleton, List.sum_singleton, add_comm]
  unfold driversStep
  cases op with
  | load c =>
    refine Triple.conv (own' := driversOwned ds) rfl (Triple.bind (Driver.new_triple c) ?_)
    rintro d _ ⟨hd, rfl⟩
    refine Triple.pure ⟨fun x hx => ?_, (app ds d).symm⟩
    rcases List.mem_append.mp hx with hx | hx
    · exact h x hx
    · exact .inr (hd x (List.mem_singleton.mp hx).symm)
  | query i q =>
    dsimp only
    split
    · next mesh e m hi =>
      have sub : ∀ a ∈ Driver.owned ⟨some mesh, some e, some m⟩, a ∈ ext ∨ a ∈ driversOwned ds := fun a ha => .inr (sum_mem Driver.owned hi a ha)
      have hm : mesh ∈ ext ∨ mesh ∈ driversOwned ds := sub _ (by simp [Driver.owned, ownedBy])
      obtain ⟨he, hb⟩ : e.solver.On mesh ∧ m.solver.On mesh := by
        rcases h _ (List.mem_of_getElem? hi) with h | ⟨m', e', b', h, h1, h2⟩
        · cases h
        · cases h
          exact ⟨h1, h2⟩
      refine Triple.bind (Driver.query_triple (Problem.usable he (fun a ha => sub a (by simp [Driver.owned, ownedBy, ha])) hm)
        (Problem.usable hb (fun a ha => sub a (by simp [Driver.owned, ownedBy, ha])) hm) hm q) ?_
      rintro _ _ rfl
      exact stay
    · exact stay
  | moveConstruct i =>
    dsimp only
    split
    · next d hi =>
      refine Triple.pure ⟨fun x hx => ?_, ?_⟩
      · rcases List.mem_append.mp hx with hx | hx
        · rcases List.mem_or_eq_of_mem_set hx with hx | hx
          · exact h x hx
          · exact .inl (Option.some.inj hx)
        · have := Option.some.inj (List.mem_singleton.mp hx)
          subst this
          exact h x (List.mem_of_getElem? hi)
      · rw [app, step0 hi (some ⟨none, none, none⟩) nul]
        rfl
    · exact stay
  | moveAssign i j =>
    dsimp only
    split
    · exact stay
    · next hij =>
      split
      · next a b hi hj =>
        have hj' : (ds.set i (some b))[j]? = some (some b) := by rw [List.getElem?_set_ne hij]; exact hj
        have e1 := sum_set Driver.owned hi (some b)
        have e2 := step0 hj' (some ⟨none, none, none⟩) nul
        have e3 : driversOwned ds = a.owned + driversOwned ((ds.set i (some b)).set j (some ⟨none, none, none⟩)) := by
          have : driversOwned ds + b.owned = a.owned + driversOwned (ds.set i (some b)) := e1
          rw [e2] at this
          refine add_right_cancel (b := b.owned) (this.trans ?_)
          abel
        rw [e3]
        refine Triple.bind Driver.moveAssign_triple ?_; rintro _ _ rfl
        refine Triple.pure ⟨fun x hx => ?_, rfl⟩
        rcases List.mem_or_eq_of_mem_set hx with hx | hx
        · rcases List.mem_or_eq_of_mem_set hx with hx | hx
          · exact h x hx
          · have := Option.some.inj hx
            subst this
            exact h x (List.mem_of_getElem? hj)
        · exact .inl (Option.some.inj hx)
      · exact stay
  | destroy i =>
    dsimp only
    split
    · next d hi =>
      rw [step0 hi none rfl]
      refine Triple.bind Driver.delete_triple ?_; rintro _ _ rfl
      refine Triple.pure ⟨fun x hx => ?_, rfl⟩
      rcases List.mem_or_eq_of_mem_set hx with hx | hx
      · exact h x hx
      · cases hx
    · exact stay

theorem driversRun_triple {ds : List (Option Driver)} (h : ∀ d, some d ∈ ds → d.Ok) (ops : List DriverCall) :
    Triple ext (driversOwned ds) (driversRun ds ops) (fun ds' o => o = driversOwned ds' ∧ ∀ d, some d ∈ ds' → d.Ok) := by
  induction ops generalizing ds with
  | nil => exact Triple.pure ⟨rfl, h⟩
  | cons op ops ih =>
    refine Triple.bind (driversStep_triple h op) ?_
    rintro ds' _ ⟨h', rfl⟩
    exact ih h'

theorem bind_some {m : Mem α} {f : α → Mem β} {h h' : Heap} {y : β} (e : (m >>= f) h = some (y, h')) : ∃ x h1, m h = some (x, h1) ∧ f x h1 = some (y, h') := by
  have e : (m h).bind (fun p => f p.1 p.2) = some (y, h') := e
  obtain ⟨⟨x, h1⟩, e1, e2⟩ := Option.bind_eq_some_iff.mp e
  exact ⟨x, h1, e1, e2⟩

theorem then_pure {m : Mem α} {x y : β} {h h' : Heap} (e : (m >>= fun _ => Pure.pure x) h = some (y, h')) : y = x := by
  obtain ⟨_, h1, -, e⟩ := bind_some e
  have e : some (x, h1) = some (y, h') := e
  cases e
  rfl

theorem pure_some {x y : α} {h h' : Heap} (e : (Pure.pure x : Mem α) h = some (y, h')) : y = x := by
  have e : some (x, h) = some (y, h') := e
  cases e
  rfl

theorem bind_of_some {m : Mem α} {f : α → Mem β} {h h1 : Heap} {x : α} (e : m h = some (x, h1)) : (m >>= f) h = f x h1 := by
  show (m h).bind (fun p => f p.1 p.2) = _
  rw [e]
  rfl

theorem bind_of_none {m : Mem α} {f : α → Mem β} {h : Heap} (e : m h = none) : (m >>= f) h = none := by
  show (m h).bind (fun p => f p.1 p.2) = _
  rw [e]
  rfl

/-- every result satisfies `P` -/
def Gives (m : Mem α) (P : α → Prop) : Prop := ∀ h y h', m h = some (y, h') → P y

theorem Gives.pure {x : α} {P : α → Prop} (hp : P x) : Gives (Pure.pure x) P := by
  intro h y h' e
  rw [pure_some e]
  exact hp

theorem Gives.bind {m : Mem α} {f : α → Mem β} {P : β → Prop} (hp : ∀ x, Gives (f x) P) : Gives (m >>= f) P := by
  intro h y h' e
  obtain ⟨x, h1, -, e⟩ := bind_some e
  exact hp x h1 y h' e

theorem Client.step_length {c : Client} {op : SolverCall} : Gives (c.step op) (fun c' => c'.solutions.length ≤ c.solutions.length + 1) := by
  have st : Gives (Pure.pure c) (fun c' : Client => c'.solutions.length ≤ c.solutions.length + 1) := Gives.pure (Nat.le_succ _)
  unfold Client.step
  cases op <;> dsimp only
  case getSolution =>
    split
    · exact Gives.bind fun t => Gives.pure (by simp)
    · exact st
  case drop i =>
    split
    · exact Gives.bind fun t => Gives.pure (by simp)
    · exact st
  case destroy =>
    split
    · exact Gives.bind fun t => Gives.pure (by simp)
    · exact st
  all_goals first
    | exact st
    | (split
       · exact Gives.bind fun t => st
       · exact st)

theorem driversStep_length {ds : List (Option Driver)} {op : DriverCall} : Gives (driversStep ds op) (fun ds' => ds'.length ≤ ds.length + 1) := by
  have st : Gives (Pure.pure ds) (fun c' : List (Option Driver) => c'.length ≤ ds.length + 1) := Gives.pure (Nat.le_succ _)
  unfold driversStep
  cases op <;> dsimp only
  case load c => exact Gives.bind fun t => Gives.pure (by simp)
  case query =>
    split
    · exact Gives.bind fun t => st
    · exact st
  case moveConstruct =>
    split
    · exact Gives.pure (by simp)
    · exact st
  case moveAssign =>
    split
    · exact st
    · split
      · exact Gives.bind fun t => Gives.pure (by simp)
      · exact st
  case destroy =>
    split
    · exact Gives.bind fun t => Gives.pure (by simp)
    · exact st

theorem Client.step_drop {c : Client} {j : Nat} : Gives (c.step (.drop j)) (fun c1 => c1.solver = c.solver ∧
    c1.solutions.length = c.solutions.length ∧ (∀ t, c1.solutions[j]? ≠ some (some t)) ∧
        ∀ i : Nat, c.solutions[i]? = some none → c1.solutions[i]? = some none) := by
  unfold Client.step
  dsimp only
  split
  · next t ht =>
    refine Gives.bind fun _ => Gives.pure ⟨rfl, by simp, fun t' => ?_, fun i hi => ?_⟩
    · have hj : j < c.solutions.length := (List.getElem?_eq_some_iff.mp ht).1
      show (c.solutions.set j none)[j]? ≠ _
      rw [List.getElem?_set_self hj]
      exact fun e => by cases e
    · show (c.solutions.set j none)[i]? = _
      by_cases hij : j = i
      · subst hij
        rw [ht] at hi
        cases hi
      · rw [List.getElem?_set_ne hij]
        exact hi
  · next hn => exact Gives.pure ⟨rfl, rfl, fun t ht => hn t ht, fun _ h => h⟩

theorem driversStep_destroy {ds : List (Option Driver)} {j : Nat} : Gives (driversStep ds (.destroy j)) (fun c1 =>
    c1.length = ds.length ∧ (∀ t, c1[j]? ≠ some (some t)) ∧ ∀ i : Nat, ds[i]? = some none → c1[i]? = some none) := by
  unfold driversStep
  dsimp only
  split
  · next t ht =>
    refine Gives.bind fun _ => Gives.pure ⟨by simp, fun t' => ?_, fun i hi => ?_⟩
    · have hj : j < ds.length := (List.getElem?_eq_some_iff.mp ht).1
      rw [List.getElem?_set_self hj]
      exact fun e => by cases e
    · by_cases hij : j = i
      · subst hij
        rw [ht] at hi
        cases hi
      · rw [List.getElem?_set_ne hij]
        exact hi
  · next hn => exact Gives.pure ⟨rfl, fun t ht => hn t ht, fun _ h => h⟩

theorem Client.step_destroy {c : Client} : Gives (c.step .destroy) (fun c' => c'.solver = none ∧ c'.solutions = c.solutions) := by
  unfold Client.step
  dsimp only
  split
  · exact Gives.bind fun _ => Gives.pure ⟨rfl, rfl⟩
  · next h => exact Gives.pure ⟨h, rfl⟩

theorem Client.run_length {c c' : Client} {ops : List SolverCall} {h h' : Heap} (e : c.run ops h = some (c', h')) :
    c'.solutions.length ≤ c.solutions.length + ops.length := by
  induction ops generalizing c h with
  | nil => rw [pure_some e]; exact Nat.le_refl _
  | cons op ops ih =>
    obtain ⟨c1, h1, e1, e2⟩ := bind_some e
    have := ih e2
    have := Client.step_length _ _ _ e1
    rw [List.length_cons]
    omega

theorem Client.run_append {c c' : Client} {l1 l2 : List SolverCall} {h h' : Heap} (e : c.run (l1 ++ l2) h = some (c', h')) :
    ∃ c1 h1, c.run l1 h = some (c1, h1) ∧ c1.run l2 h1 = some (c', h') := by
  induction l1 generalizing c h with
  | nil => exact ⟨c, h, rfl, e⟩
  | cons op l1 ih =>
    obtain ⟨c1, h1, e1, e2⟩ := bind_some e
    obtain ⟨c2, h2, e3, e4⟩ := ih e2
    refine ⟨c2, h2, ?_, e4⟩
    show (c.step op h).bind (fun p => Client.run p.1 l1 p.2) = _
    rw [e1]
    exact e3

theorem Client.run_drops {c c' : Client} {l : List Nat} {h h' : Heap} (e : c.run (l.map .drop) h = some (c', h')) :
    c'.solver = c.solver ∧ c'.solutions.length = c.solutions.length ∧ (∀ i ∈ l, ∀ t, c'.solutions[i]? ≠ some (some t)) ∧
      ∀ i : Nat, c.solutions[i]? = some none → c'.solutions[i]? = some none := by
  induction l generalizing c h with
  | nil =>
    rw [pure_some e]
    exact ⟨rfl, rfl, (fun i hi => by cases hi), fun _ h => h⟩
  | cons j l ih =>
    obtain ⟨c1, h1, e1, e2⟩ := bind_some e
    obtain ⟨k1, k2, k3, k4⟩ := ih e2
    have key := Client.step_drop _ _ _ e1
    refine ⟨k1.trans key.1, k2.trans key.2.1, ?_, fun i hi => k4 i (key.2.2.2 i hi)⟩
    intro i hi t ht
    rcases List.mem_cons.mp hi with rfl | hi
    · cases hc : c1.solutions[i]? with
      | none =>
        have := List.getElem?_eq_none_iff.mp hc
        rw [List.getElem?_eq_none_iff.mpr (by omega)] at ht
        cases ht
      | some x =>
        cases x with
        | none => rw [k4 i hc] at ht; cases ht
        | some x => exact key.2.2.1 x hc
    · exact k3 i hi t ht

theorem driversRun_length {ds ds' : List (Option Driver)} {ops : List DriverCall} {h h' : Heap} (e : driversRun ds ops h = some (ds', h')) :
    ds'.length ≤ ds.length + ops.length := by
  induction ops generalizing ds h with
  | nil => rw [pure_some e]; exact Nat.le_refl _
  | cons op ops ih =>
    obtain ⟨c1, h1, e1, e2⟩ := bind_some e
    have := ih e2
    have := driversStep_length _ _ _ e1
    rw [List.length_cons]
    omega

theorem driversRun_append {ds ds' : List (Option Driver)} {l1 l2 : List DriverCall} {h h' : Heap} (e : driversRun ds (l1 ++ l2) h = some (ds', h')) :
    ∃ d1 h1, driversRun ds l1 h = some (d1, h1) ∧ driversRun d1 l2 h1 = some (ds', h') := by
  induction l1 generalizing ds h with
  | nil => exact ⟨ds, h, rfl, e⟩
  | cons op l1 ih =>
    obtain ⟨c1, h1, e1, e2⟩ := bind_some e
    obtain ⟨c2, h2, e3, e4⟩ := ih e2
    refine ⟨c2, h2, ?_, e4⟩
    show (driversStep ds op h).bind (fun p => driversRun p.1 l1 p.2) = _
    rw [e1]
    exact e3

theorem driversRun_destroys {ds ds' : List (Option Driver)} {l : List Nat} {h h' : Heap} (e : driversRun ds (l.map .destroy) h = some (ds', h')) :
    ds'.length = ds.length ∧ (∀ i ∈ l, ∀ t, ds'[i]? ≠ some (some t)) ∧ ∀ i : Nat, ds[i]? = some none → ds'[i]? = some none := by
  induction l generalizing ds h with
  | nil =>
    rw [pure_some e]
    exact ⟨rfl, (fun i hi => by cases hi), fun _ h => h⟩
  | cons j l ih =>
    obtain ⟨c1, h1, e1, e2⟩ := bind_some e
    obtain ⟨k2, k3, k4⟩ := ih e2
    have key := driversStep_destroy _ _ _ e1
    refine ⟨k2.trans key.1, ?_, fun i hi => k4 i (key.2.2 i hi)⟩
    intro i hi t ht
    rcases List.mem_cons.mp hi with rfl | hi
    · cases hc : c1[i]? with
      | none =>
        have := List.getElem?_eq_none_iff.mp hc
        rw [List.getElem?_eq_none_iff.mpr (by omega)] at ht
        cases ht
      | some x =>
        cases x with
        | none => rw [k4 i hc] at ht; cases ht
        | some x => exact key.2.1 x hc
    · exact k3 i hi t ht

theorem touch_live {a : Addr} {h h' : Heap} {x : Unit} (e : touch a h = some (x, h')) : a ∈ h.live ∧ h' = h := by
  unfold touch at e
  split at e
  · next ha => cases e; exact ⟨ha, rfl⟩
  · cases e

theorem touchAll_live {as : List Addr} {h h' : Heap} {x : Unit} (e : touchAll as h = some (x, h')) : (∀ a ∈ as, a ∈ h.live) ∧ h' = h := by
  induction as generalizing h with
  | nil =>
    have e : some ((), h) = some (x, h') := e
    cases e
    exact ⟨(fun a ha => by cases ha), rfl⟩
  | cons a as ih =>
    rw [touchAll] at e
    obtain ⟨_, h1, e1, e2⟩ := bind_some e
    obtain ⟨ha, rfl⟩ := touch_live e1
    obtain ⟨h2, rfl⟩ := ih e2
    refine ⟨fun b hb => ?_, rfl⟩
    rcases List.mem_cons.mp hb with rfl | hb
    · exact ha
    · exact h2 b hb

/-- Assembling uses the coefficients of all integrators. -/
theorem Form.assemble_live {f : Form} {h h' : Heap} {x : Unit} (e : f.assemble h = some (x, h')) {i : Integrator} (hi : i ∈ f.integrators) {c : Addr}
    (hc : c ∈ i.coefs) : c ∈ h.live := by
  rw [Form.assemble] at e
  obtain ⟨_, h1, e1, ea⟩ := bind_some e
  have q1 := (touch_live e1).2
  obtain ⟨_, h2, e2, eb⟩ := bind_some ea
  have q2 := (touchAll_live e2).2
  rw [← q1, ← q2]
  exact (touchAll_live eb).1 c (List.mem_flatMap.mpr ⟨i, hi, List.mem_cons_of_mem _ hc⟩)

theorem Solver.build_gives {mesh : Addr} {h1 hcurl hdiv l2 : Space} {eps : Addr} {f : Form} :
    Gives (Solver.build mesh h1 hcurl hdiv l2 eps f) (fun s => s.divEpsGrad = f) := by
  unfold Solver.build
  repeat first
    | exact Gives.pure rfl
    | (refine Gives.bind fun _ => ?_)

theorem Form.add_gives {f : Form} {cs : List Addr} : Gives (f.add cs) (fun f' => ∃ i ∈ f'.integrators, i.coefs = cs) := by
  unfold Form.add
  refine Gives.bind fun i => Gives.bind fun _ => Gives.pure ⟨⟨i, cs⟩, ?_, rfl⟩
  simp

/-- After the constructor for an open model an integrator of the Laplacian points to an object that is gone. -/
theorem Solver.new_dangling {mesh : Addr} {h h' : Heap} {s : Solver} (e : Solver.new mesh true h = some (s, h')) :
    ∃ i ∈ s.divEpsGrad.integrators, ∃ c ∈ i.coefs, c ∉ h'.live := by
  unfold Solver.new at e
  iterate 7
    replace e := bind_some e
    obtain ⟨_, _, -, e⟩ := e
  obtain ⟨_, _, -, e⟩ := bind_some e
  rw [if_pos rfl] at e
  obtain ⟨c, _, -, e⟩ := bind_some e
  obtain ⟨f, _, ef, e⟩ := bind_some e
  obtain ⟨s', _, es, e⟩ := bind_some e
  obtain ⟨_, h2, ed, e⟩ := bind_some e
  have e : some (s', h2) = some (s, h') := e
  cases e
  obtain ⟨i, hi, hc⟩ := Form.add_gives _ _ _ ef
  refine ⟨i, ?_, c, ?_, ?_⟩
  · rw [Solver.build_gives _ _ _ es]
    exact hi
  · rw [hc]
    exact List.mem_singleton_self c
  · unfold Lifetimes.delete at ed
    split at ed
    · cases ed
      exact Finset.notMem_erase c _
    · cases ed

end

end Tulip.Lifetimes

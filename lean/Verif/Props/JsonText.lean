import Verif.Proofs.JsonWrite
import Verif.Props.DriverCell

/-!
# C117: texts of JSON documents
-/

namespace Tulip.Props
open Tulip Tulip.Spec Tulip.JsonText
variable {𝕜 : Type _}

/-! ## Reading -/

/-- **C117, reading.** A text is accepted if and only if it belongs to the grammar of RFC 8259, and then the result is the
value that it denotes. -/
theorem C117_reads (fmt : NumberFormat 𝕜) (j : Json 𝕜) (s : List Char) : parse fmt s = some j ↔ JsonDocument fmt j s :=
  parse_iff j s

/-- **C117, unambiguous.** No text denotes two values. -/
theorem C117_unambiguous (fmt : NumberFormat 𝕜) {j j' : Json 𝕜} {s : List Char} (h : JsonDocument fmt j s)
    (h' : JsonDocument fmt j' s) : j = j' := by
  have a := (parse_iff j s).mpr h
  have b := (parse_iff j' s).mpr h'
  rw [a] at b
  exact Option.some.inj b

/-! ## Writing -/

/-- **C117, writing.** What is written denotes the value: it is read back as it was. -/
theorem C117_writes (fmt : NumberFormat 𝕜) {j : Json 𝕜} (h : Writable fmt j) :
    JsonDocument fmt j (dump fmt j) ∧ parse fmt (dump fmt j) = some j := by
  have hd : JsonDocument fmt j (dump fmt j) := ⟨[], dump fmt j, [], by simp, blank_nil, valueText_dump h, blank_nil⟩
  exact ⟨hd, (parse_iff j _).mpr hd⟩

theorem writable_rows (fmt : NumberFormat 𝕜) (M : DMat 𝕜) (h : ∀ i j, Prints fmt (M.f i j)) :
    Writable fmt (PULParameters.vecVecToJson (toVecVec M)) := by
  refine .arr fun r hr => ?_
  simp only [toVecVec, List.mem_map, List.mem_ofFn] at hr
  obtain ⟨_, ⟨i, rfl⟩, rfl⟩ := hr
  refine .arr fun x hx => ?_
  simp only [List.mem_map, List.mem_ofFn] at hx
  obtain ⟨_, ⟨j, rfl⟩, rfl⟩ := hx
  exact .num (h i j)

theorem writable_pul (fmt : NumberFormat 𝕜) (p : PULParameters 𝕜) (hC : ∀ i j, Prints fmt (p.C.f i j))
    (hL : ∀ i j, Prints fmt (p.L.f i j)) : Writable fmt p.toJSON := by
  refine .obj (by simp only [List.pairwise_cons, List.mem_cons, List.not_mem_nil, or_false, forall_eq, String.lt_iff_toList_lt]; simp; decide) fun kv hkv => ?_
  simp only [List.mem_cons, List.not_mem_nil, or_false] at hkv
  rcases hkv with rfl | rfl
  · exact writable_rows fmt p.C hC
  · exact writable_rows fmt p.L hL

/-- **C117, results file.** The text of per-unit-length parameters is read back, by a program that gets the text alone, as the
parameters that were written, if all entries can be printed. -/
theorem C117_pul [Field 𝕜] (fmt : NumberFormat 𝕜) (p : PULParameters 𝕜)
    (hC : ∀ i j, Prints fmt (p.C.f i j)) (hL : ∀ i j, Prints fmt (p.L.f i j)) (h1 : 0 < p.C.h) (h2 : 0 < p.C.w)
    (h3 : 0 < p.L.h) (h4 : 0 < p.L.w) :
    ∃ j, parse fmt (dump fmt p.toJSON) = some j ∧ PULParameters.ofJSON j = .ok p := by
  classical
  refine ⟨_, (C117_writes fmt (writable_pul fmt p hC hL)).2, ?_⟩
  obtain ⟨q, e, -, eC, eL⟩ := C42_round_trip p
  rw [e]
  have a := eC h1 h2
  have b := eL h3 h4
  cases p; cases q
  simp only at a b
  rw [a, b]

theorem writable_reconstruction (fmt : NumberFormat 𝕜) (f : FieldReconstruction 𝕜)
    (h : ∀ x ∈ reconstructionNumbers f, Prints fmt x) : Writable fmt f.toJSON := by
  simp only [reconstructionNumbers, List.mem_append, List.mem_cons, List.not_mem_nil, or_false, List.mem_map] at h
  refine .obj (by simp only [List.pairwise_cons, List.mem_cons, List.not_mem_nil, or_false, forall_eq_or_imp, forall_eq, String.lt_iff_toList_lt]; simp; decide) fun kv hkv => ?_
  simp only [List.mem_cons, List.not_mem_nil, or_false] at hkv
  rcases hkv with rfl | rfl | rfl | rfl
  · refine .arr fun x hx => ?_
    simp only [List.mem_map] at hx
    obtain ⟨q, hq, rfl⟩ := hx
    refine .arr fun x hx => ?_
    simp only [List.mem_cons, List.not_mem_nil, or_false] at hx
    rcases hx with rfl | rfl
    · exact .num (h _ (Or.inl (Or.inl (Or.inr ⟨q, hq, rfl⟩))))
    · exact .num (h _ (Or.inl (Or.inr ⟨q, hq, rfl⟩)))
  · refine .arr fun x hx => ?_
    simp only [List.mem_map] at hx
    obtain ⟨q, hq, rfl⟩ := hx
    exact .num (h _ (Or.inr ⟨q, hq, rfl⟩))
  · refine .arr fun x hx => ?_
    simp only [List.mem_cons, List.not_mem_nil, or_false] at hx
    rcases hx with rfl | rfl
    · exact .num (h _ (Or.inl (Or.inl (Or.inl (Or.inr (Or.inl rfl))))))
    · exact .num (h _ (Or.inl (Or.inl (Or.inl (Or.inr (Or.inr rfl))))))
  · exact .num (h _ (Or.inl (Or.inl (Or.inl (Or.inl rfl)))))

theorem writable_cell (fmt : NumberFormat 𝕜) (p : InCellPotentials 𝕜) (h : ∀ x ∈ cellNumbers p, Prints fmt x) :
    Writable fmt p.toJSON := by
  simp only [cellNumbers, List.mem_append, List.mem_cons, List.not_mem_nil, or_false, List.mem_flatMap] at h
  refine .obj (by simp only [List.pairwise_cons, List.mem_cons, List.not_mem_nil, or_false, forall_eq_or_imp, forall_eq, String.lt_iff_toList_lt]; simp; decide) fun kv hkv => ?_
  simp only [List.mem_cons, List.not_mem_nil, or_false] at hkv
  rcases hkv with rfl | rfl | rfl
  · refine .arr fun x hx => ?_
    simp only [List.mem_map] at hx
    obtain ⟨q, hq, rfl⟩ := hx
    exact writable_reconstruction fmt q.2 fun x hx => h x (Or.inl (Or.inr ⟨q, hq, hx⟩))
  · refine .obj (by simp only [List.pairwise_cons, List.mem_cons, List.not_mem_nil, or_false, forall_eq, String.lt_iff_toList_lt]; simp; decide) fun kv hkv => ?_
    simp only [List.mem_cons, List.not_mem_nil, or_false] at hkv
    rcases hkv with rfl | rfl
    · refine .arr fun x hx => ?_
      simp only [List.mem_cons, List.not_mem_nil, or_false] at hx
      rcases hx with rfl | rfl
      · exact .num (h _ (Or.inl (Or.inl (Or.inr (Or.inr (Or.inl rfl))))))
      · exact .num (h _ (Or.inl (Or.inl (Or.inr (Or.inr (Or.inr rfl))))))
    · refine .arr fun x hx => ?_
      simp only [List.mem_cons, List.not_mem_nil, or_false] at hx
      rcases hx with rfl | rfl
      · exact .num (h _ (Or.inl (Or.inl (Or.inl rfl))))
      · exact .num (h _ (Or.inl (Or.inl (Or.inr (Or.inl rfl)))))
  · refine .arr fun x hx => ?_
    simp only [List.mem_map] at hx
    obtain ⟨q, hq, rfl⟩ := hx
    exact writable_reconstruction fmt q.2 fun x hx => h x (Or.inr ⟨q, hq, hx⟩)

/-- **C117, results file for cells.** The text of results for cells, keyed 0, 1, ... as those of the driver are, is read back
as they were, if their numbers can be printed. -/
theorem C117_in_cell [Field 𝕜] [LinearOrder 𝕜] (fmt : NumberFormat 𝕜) (p : InCellPotentials 𝕜) (hp : MapsSorted p)
    (hk : AllKeyedFromZero p) (h : ∀ x ∈ cellNumbers p, Prints fmt x) :
    ∃ j, parse fmt (dump fmt p.toJSON) = some j ∧ InCellPotentials.ofJSON j = .ok p := by
  refine ⟨_, (C117_writes fmt (writable_cell fmt p h)).2, ?_⟩
  obtain ⟨q, e, -, h3⟩ := C43_round_trip p hp
  rw [e, h3 hk]

/-- **C117, the driver's results for cells.** The text of what the driver answers is read back as that answer. -/
theorem C117_driver [Field 𝕜] [LinearOrder 𝕜] [IsStrictOrderedRing 𝕜] [FloorRing 𝕜] (fmt : NumberFormat 𝕜) (E : Engine 𝕜) {model : Model 𝕜}
    {opts : DriverOptions} {ps : List (PEC 𝕜)}
    (hN : Numbering model.materials ps) (hB : Buildable (E.fem model opts) model.materials)
    {d : Driver (E.fem model opts)} (hd : (Driver.construct E model opts).1 = .ok d) {p : InCellPotentials 𝕜}
    (hp : (Query.inCell.exec E d).1 = .ok (.inCell p)) (h : ∀ x ∈ cellNumbers p, Prints fmt x) :
    ∃ j, parse fmt (dump fmt p.toJSON) = some j ∧ InCellPotentials.ofJSON j = .ok p :=
  ⟨_, (C117_writes fmt (writable_cell fmt p h)).2, (C43_driver E hN hB hd hp).2⟩

/-! ## Numbers that are not finite -/

theorem convertAll_or {α β γ : Type _} (g : β → Outcome γ) (f : α → β) (k : α → γ)
    (h : ∀ a, g (f a) = .ok (k a) ∨ g (f a) = .throw .json) (l : List α) :
    (Json.convertAll g (l.map f) = .ok (l.map k) ∧ ∀ a ∈ l, g (f a) = .ok (k a)) ∨
    (Json.convertAll g (l.map f) = .throw .json) := by
  induction l with
  | nil => exact Or.inl ⟨rfl, by simp⟩
  | cons a l ih =>
    rcases h a with h1 | h1
    · rcases ih with ⟨i1, i2⟩ | i1
      · refine Or.inl ⟨by simp only [List.map_cons, Json.convertAll, h1, i1, Outcome.ok_bind], ?_⟩
        intro b hb
        rcases List.mem_cons.mp hb with rfl | hb
        · exact h1
        · exact i2 b hb
      · exact Or.inr (by simp only [List.map_cons, Json.convertAll, h1, i1, Outcome.ok_bind, Outcome.throw_bind])
    · exact Or.inr (by simp only [List.map_cons, Json.convertAll, h1, Outcome.throw_bind])

open Classical in
/-- What a number becomes in the text: `null` if the format writes that. -/
noncomputable def asRead (fmt : NumberFormat 𝕜) (x : 𝕜) : Json 𝕜 := if fmt.write x = "null".toList then .null else .num x

theorem dump_asRead (fmt : NumberFormat 𝕜) (x : 𝕜) : dump fmt (asRead fmt x) = dump fmt (.num x) := by
  unfold asRead
  split
  · rename_i h
    simp only [dump]
    rw [h]
    rfl
  · rfl

theorem dumpElems_congr {α : Type _} (fmt : NumberFormat 𝕜) (f g : α → Json 𝕜)
    (h : ∀ a, dump fmt (f a) = dump fmt (g a)) : ∀ l : List α, dumpElems fmt (l.map f) = dumpElems fmt (l.map g)
  | [] => rfl
  | [a] => by simp only [List.map_cons, List.map_nil, dumpElems, h]
  | a :: b :: l => by
    have := dumpElems_congr fmt f g h (b :: l)
    simp only [List.map_cons] at this
    simp only [List.map_cons, dumpElems, h, this]

/-- Rows of a matrix with numbers as they are read. -/
noncomputable def rowsAsRead (fmt : NumberFormat 𝕜) (v : List (List 𝕜)) : Json 𝕜 :=
  .arr (v.map (fun r => .arr (r.map (asRead fmt))))

theorem dump_rows (fmt : NumberFormat 𝕜) (v : List (List 𝕜)) :
    dump fmt (rowsAsRead fmt v) = dump fmt (PULParameters.vecVecToJson v) := by
  unfold rowsAsRead PULParameters.vecVecToJson
  simp only [dump]
  rw [dumpElems_congr fmt _ _ (fun r => ?_)]
  simp only [dump]
  rw [dumpElems_congr fmt _ _ (dump_asRead fmt)]

theorem writable_asRead (fmt : NumberFormat 𝕜) {x : 𝕜} (h : Prints fmt x ∨ fmt.write x = "null".toList) :
    Writable fmt (asRead fmt x) := by
  unfold asRead
  split
  · exact .null
  · rename_i hn
    exact .num (h.resolve_right hn)

theorem rows_read [Field 𝕜] (fmt : NumberFormat 𝕜) (M : DMat 𝕜) :
    (Json.getVector (Json.getVector Json.getDouble) (rowsAsRead fmt (toVecVec M)) = .ok (toVecVec M) ∧
      ∀ i j, fmt.write (M.f i j) ≠ "null".toList) ∨
    Json.getVector (Json.getVector Json.getDouble) (rowsAsRead fmt (toVecVec M)) = .throw .json := by
  have hx : ∀ x : 𝕜, (asRead fmt x).getDouble = .ok x ∨ (asRead fmt x).getDouble = .throw .json := by
    intro x
    unfold asRead
    split
    · exact Or.inr rfl
    · exact Or.inl rfl
  have hrow : ∀ r : List 𝕜, Json.getVector Json.getDouble (.arr (r.map (asRead fmt))) = .ok r ∨
      Json.getVector Json.getDouble (.arr (r.map (asRead fmt))) = .throw .json := by
    intro r
    rcases convertAll_or Json.getDouble (asRead fmt) id hx r with ⟨h, -⟩ | h
    · rw [List.map_id] at h; exact Or.inl h
    · exact Or.inr h
  rcases convertAll_or (Json.getVector Json.getDouble) (fun r => .arr (r.map (asRead fmt))) id hrow (toVecVec M) with
    ⟨h, h'⟩ | h
  · refine Or.inl ⟨by rw [List.map_id] at h; exact h, ?_⟩
    intro i j hn
    have hr := h' (List.ofFn fun j => M.f i j) (by rw [toVecVec, List.mem_ofFn]; exact ⟨i, rfl⟩)
    rcases convertAll_or Json.getDouble (asRead fmt) id hx (List.ofFn fun j => M.f i j) with ⟨-, h2⟩ | h2
    · have := h2 (M.f i j) (by rw [List.mem_ofFn]; exact ⟨j, rfl⟩)
      unfold asRead at this
      rw [if_pos hn] at this
      cases this
    · rw [show Json.getVector Json.getDouble (.arr ((List.ofFn fun j => M.f i j).map (asRead fmt))) = .throw .json from h2] at hr
      cases hr
  · exact Or.inr h

/-- **C117, numbers that are not finite.** They are written as `null`: the file is a valid document, but reading the
parameters from it fails, so that nothing of the result can be recovered. -/
theorem C117_not_finite [Field 𝕜] (fmt : NumberFormat 𝕜) (p : PULParameters 𝕜)
    (hC : ∀ i j, Prints fmt (p.C.f i j) ∨ fmt.write (p.C.f i j) = "null".toList)
    (hL : ∀ i j, Prints fmt (p.L.f i j) ∨ fmt.write (p.L.f i j) = "null".toList)
    (h : (∃ i j, fmt.write (p.C.f i j) = "null".toList) ∨ ∃ i j, fmt.write (p.L.f i j) = "null".toList) :
    ∃ j, parse fmt (dump fmt p.toJSON) = some j ∧ PULParameters.ofJSON j = .throw .json := by
  let j : Json 𝕜 := .obj [("C", rowsAsRead fmt (toVecVec p.C)), ("L", rowsAsRead fmt (toVecVec p.L))]
  have hw : ∀ M : DMat 𝕜, (∀ i j, Prints fmt (M.f i j) ∨ fmt.write (M.f i j) = "null".toList) →
      Writable fmt (rowsAsRead fmt (toVecVec M)) := by
    intro M hM
    refine .arr fun r hr => ?_
    simp only [toVecVec, List.mem_map, List.mem_ofFn] at hr
    obtain ⟨_, ⟨i, rfl⟩, rfl⟩ := hr
    refine .arr fun x hx => ?_
    simp only [List.mem_map, List.mem_ofFn] at hx
    obtain ⟨_, ⟨j, rfl⟩, rfl⟩ := hx
    exact writable_asRead fmt (hM i j)
  have hj : Writable fmt j := by
    refine .obj (by simp only [List.pairwise_cons, List.mem_cons, List.not_mem_nil, or_false, forall_eq, String.lt_iff_toList_lt]; simp; decide) fun kv hkv => ?_
    simp only [List.mem_cons, List.not_mem_nil, or_false] at hkv
    rcases hkv with rfl | rfl
    · exact hw p.C hC
    · exact hw p.L hL
  have hd : dump fmt p.toJSON = dump fmt j := by
    simp only [PULParameters.toJSON, j, dump, dumpMembers, dump_rows]
  refine ⟨j, by rw [hd]; exact (C117_writes fmt hj).2, ?_⟩
  unfold PULParameters.ofJSON
  have h1 : j.hasKey "C" = true := rfl
  have h2 : j.hasKey "L" = true := rfl
  have h3 : j.at_ "C" = .ok (rowsAsRead fmt (toVecVec p.C)) := rfl
  have h4 : j.at_ "L" = .ok (rowsAsRead fmt (toVecVec p.L)) := rfl
  rw [h1, h2, h3, h4]
  simp only [Bool.not_true, Bool.or_self, Bool.false_eq_true, if_false, Outcome.ok_bind]
  obtain ⟨MC, c1, -⟩ := read_rows p.C
  rcases rows_read fmt p.C with ⟨e, hc⟩ | e
  · rcases rows_read fmt p.L with ⟨e', hl⟩ | e'
    · rcases h with ⟨i, k, h⟩ | ⟨i, k, h⟩
      · exact absurd h (hc i k)
      · exact absurd h (hl i k)
    · rw [e, e']
      simp only [Outcome.ok_bind, c1, Outcome.throw_bind]
  · rw [e]
    simp only [Outcome.throw_bind]

/-! ## A format -/

/-- Thousandths, as in `-500e-3`; what is too large, or not a multiple, is written as `null`. -/
def thousandths : NumberFormat ℚ where
  write x := if (x * 1000).den = 1 ∧ |x| < 1000000 then dumpInt (x * 1000).num ++ ['e', '-', '3'] else "null".toList
  read t := if t.drop (t.length - 3) = ['e', '-', '3'] then some ((intValue (t.take (t.length - 3)) : ℚ) / 1000) else none

theorem thousandths_prints (x : ℚ) (h1 : (x * 1000).den = 1) (h2 : |x| < 1000000) : Prints thousandths x := by
  have hw : thousandths.write x = dumpInt (x * 1000).num ++ ['e', '-', '3'] := by
    simp only [thousandths, if_pos (And.intro h1 h2)]
  have hi := intText_dump (x * 1000).num
  refine ⟨?_, ?_⟩
  · rw [hw]
    refine ⟨_, _, [], ['e', '-', '3'], by simp, hi, Or.inl rfl, Or.inr ?_, Or.inr (by simp)⟩
    exact ⟨'e', ['-'], ['3'], rfl, Or.inl rfl, Or.inr (Or.inr rfl), by simp, by intro c hc; simp at hc; subst hc; decide⟩
  · rw [hw]
    have hv : intValue (dumpInt (x * 1000).num) = (x * 1000).num := (scanInt_complete hi (NotHead.nil _)).2
    have hq : ((x * 1000).num : ℚ) = x * 1000 := by
      conv_rhs => rw [← Rat.num_div_den (x * 1000)]
      rw [h1]
      simp
    simp only [thousandths, List.length_append, List.length_cons, List.length_nil]
    rw [Nat.zero_add, Nat.add_sub_cancel, List.drop_left, List.take_left, if_pos rfl, hv, hq]
    congr 1
    field_simp

/-- A matrix of two conductors. -/
def printed : PULParameters ℚ where
  C := ⟨2, 2, fun i j => if i = j then 2 else -1 / 2⟩
  L := ⟨1, 1, fun _ _ => 5 / 4⟩

/-- The hypotheses of `C117_pul` hold of it. -/
example : ∃ j, parse thousandths (dump thousandths printed.toJSON) = some j ∧ PULParameters.ofJSON j = .ok printed :=
  C117_pul thousandths printed
    (by intro i j; apply thousandths_prints <;> (fin_cases i <;> fin_cases j <;> simp [printed] <;> norm_num [abs_lt]))
    (by intro i j; apply thousandths_prints <;> (simp [printed]; norm_num [abs_lt]))
    (by decide) (by decide) (by decide) (by decide)

/-- The text. -/
example : String.ofList (dump thousandths printed.toJSON) =
    "{\"C\":[[2000e-3,-500e-3],[-500e-3,2000e-3]],\"L\":[[1250e-3]]}" := by decide +kernel

/-- The same parameters with an entry beyond the range of the format. -/
def overflowed : PULParameters ℚ := { printed with L := ⟨1, 1, fun _ _ => 2000000⟩ }

example : ∃ j, parse thousandths (dump thousandths overflowed.toJSON) = some j ∧
    PULParameters.ofJSON j = .throw .json :=
  C117_not_finite thousandths overflowed
    (by intro i j; left; apply thousandths_prints <;>
          (fin_cases i <;> fin_cases j <;> simp [overflowed, printed] <;> norm_num [abs_lt]))
    (by intro i j; right; show thousandths.write 2000000 = _; decide +kernel)
    (Or.inr ⟨⟨0, by decide⟩, ⟨0, by decide⟩, by decide +kernel⟩)

/-- Members with the same name: the last one counts; white space, escapes and surrogate pairs. -/
example : (parse thousandths "  {\"a\" : [ true , -1e-3 ] , \"a\" :\"\\u00e9\\ud83d\\ude00\\n\"}\n".toList).map
    (fun j => String.ofList (dump thousandths j)) = some "{\"a\":\"é😀\\n\"}" := by decide +kernel

/-- Texts that do not belong to the grammar are refused. -/
example : ∀ s ∈ ["", "[1,]", "{\"a\":1,}", "01", "-", "1.", "+1", "[1 2]", "nul", "\"\n\"", "[", "{\"a\"}", "1 1", "\"\\ud83d\""],
    parse thousandths s.toList = none := by decide +kernel

end Tulip.Props

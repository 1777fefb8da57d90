import Verif.Foreign.Lemmas
import Verif.FileIO.Theorems
namespace Verif.Foreign
open Verif.FileIO
variable {V : Type}

/-! ### TNS -/

/-- A `.tns` file of any layout — any white space between the words, leading zeros, plus signs, carriage returns, text
after the values, no newline at the end — is read as the components it lists; the dimensions are the extents of its
coordinates. The first line must be separated by blanks; a format of the same order is accepted.
Missing: other first lines, blank lines and comments, see the theorems below. -/
theorem tns_any_layout_partial (N : Num V) (fmt : Option Nat) (c : List Nat × V) (cs : List (List Nat × V)) (l : List Char) (ls : List (List Char))
    (text : List Char) (ht : Text (l :: ls) text) (hl : FirstLine N c l) (hls : Each (Line N) cs ls)
    (hc : ∀ x ∈ c :: cs, x.1.length = c.1.length ∧ ∀ k ∈ x.1, k < 2147483647) (hf : fmt = none ∨ fmt = some c.1.length) :
    readTns N fmt text =
      .ok ((List.range c.1.length).map (fun i => (extent (c :: cs) i : Int)), toInt (c :: cs)) := by
  obtain ⟨hfl, _⟩ := first_fields hl
  have hspec := linesTns_spec (N := N) (order := c.1.length) (c :: cs) (l :: ls) ⟨line_of_first hl, hls⟩
    (fun x hx => ⟨(hc x hx).1, fun k hk => by have := (hc x hx).2 k hk; unfold intMax; omega⟩) (List.replicate c.1.length 0) (by simp)
  unfold readTns
  rw [lines_text ht]
  simp only
  cases hff : fields (· == ' ') l with
  | nil => rw [hff] at hfl; simp at hfl
  | cons w ws =>
    rw [hff] at hfl
    have hws : ws.length = c.1.length := by simpa using hfl
    simp only [hws]
    have er : List.replicate c.1.length (0 : Int) = (List.replicate c.1.length 0).map (fun (d : Nat) => (d : Int)) := by simp
    rw [er, hspec]
    have ec : ∀ {α : Type} (a : α), create fmt c.1.length a = .ok a := by
      intro α a
      rcases hf with rfl | rfl <;> simp [create]
    simp only [Outcome.bind, ec, Outcome.ok.injEq, Prod.mk.injEq, and_true]
    apply List.map_congr_left
    intro i hi
    have hi : i < c.1.length := List.mem_range.mp hi
    simp [extent, List.getD, hi]

/-- A coordinate that does not fit into an `int` is rejected, wherever it stands. -/
theorem tns_large_rejected (N : Num V) (fmt : Option Nat) (c : List Nat × V) (cs : List (List Nat × V)) (l : List Char) (ls : List (List Char))
    (text : List Char) (ht : Text (l :: ls) text) (hl : FirstLine N c l) (hls : Each (Line N) cs ls)
    (hc : ∀ x ∈ c :: cs, x.1.length = c.1.length) (hbig : ∃ x ∈ c :: cs, ∃ k ∈ x.1, 2147483647 ≤ k) : readTns N fmt text = .rejected := by
  obtain ⟨hfl, _⟩ := first_fields hl
  have hspec := linesTns_large (N := N) (order := c.1.length) (c :: cs) (l :: ls) ⟨line_of_first hl, hls⟩ hc (by
    obtain ⟨x, hx, k, hk, h⟩ := hbig
    exact ⟨x, hx, k, hk, by simp only [intMax]; omega⟩) (List.replicate c.1.length 0)
  unfold readTns
  rw [lines_text ht]
  simp only
  cases hff : fields (· == ' ') l with
  | nil => rfl
  | cons w ws =>
    rw [hff] at hfl
    have hws : ws.length = c.1.length := by simpa using hfl
    simp only [hws, hspec, Outcome.bind]

/-- A file of another order than the format asked for is rejected. -/
theorem tns_order_rejected (N : Num V) (n : Nat) (c : List Nat × V) (cs : List (List Nat × V)) (l : List Char) (ls : List (List Char))
    (text : List Char) (ht : Text (l :: ls) text) (hl : FirstLine N c l) (hls : Each (Line N) cs ls)
    (hc : ∀ x ∈ c :: cs, x.1.length = c.1.length) (hn : n ≠ c.1.length) : readTns N (some n) text = .rejected := by
  by_cases hbig : ∃ x ∈ c :: cs, ∃ k ∈ x.1, 2147483647 ≤ k
  · exact tns_large_rejected N _ c cs l ls text ht hl hls hc hbig
  · obtain ⟨hfl, _⟩ := first_fields hl
    have hspec := linesTns_spec (N := N) (order := c.1.length) (c :: cs) (l :: ls) ⟨line_of_first hl, hls⟩
      (fun x hx => ⟨hc x hx, fun k hk => by
        by_cases h : 2147483647 ≤ k
        · exact absurd ⟨x, hx, k, hk, h⟩ hbig
        · unfold intMax; omega⟩) (List.replicate c.1.length 0) (by simp)
    unfold readTns
    rw [lines_text ht]
    simp only
    cases hff : fields (· == ' ') l with
    | nil => rfl
    | cons w ws =>
      rw [hff] at hfl
      have hws : ws.length = c.1.length := by simpa using hfl
      simp only [hws]
      have er : List.replicate c.1.length (0 : Int) = (List.replicate c.1.length 0).map (fun (d : Nat) => (d : Int)) := by simp
      rw [er, hspec]
      simp [Outcome.bind, create, hn]

/-- Whole numbers, read up to the first character that is not a digit. -/
def wholeNum : Num Nat := ⟨dec, fun s => decVal (s.takeWhile isDigit)⟩

theorem wholeNum_value {w : List Char} {n : Nat} (hne : w ≠ []) (hd : ∀ c ∈ w, isDigit c = true) (hv : decVal w = n) : Value wholeNum w n := by
  refine ⟨hne, fun c hc => (digit_not_space (hd c hc)).1, fun t ht => ?_⟩
  show decVal ((w ++ t).takeWhile isDigit) = n
  rw [(takeWhile_stop hd (digit_of_ends ht)).1, hv]

/-- A file with blanks before and between the words, a leading zero, a tab, a plus sign, a remark, carriage returns and
no newline at its end. -/
example : readTns wholeNum none "  1   2 5\r\n03\t+1 7 # seven\r\n2 4 12".toList = .ok ([3, 4], [([0, 1], 5), ([2, 0], 7), ([1, 3], 12)]) := by
  have num : ∀ (w : List Char) (n : Nat), w ≠ [] → (∀ c ∈ w, isDigit c = true) → decVal w = n → Numeral w n :=
    fun w n h1 h2 h3 => ⟨[], w, rfl, .inl rfl, h1, h2, h3⟩
  have h := tns_any_layout_partial wholeNum none ([0, 1], 5) [([2, 0], 7), ([1, 3], 12)] "  1   2 5\r".toList ["03\t+1 7 # seven\r".toList, "2 4 12".toList]
    "  1   2 5\r\n03\t+1 7 # seven\r\n2 4 12".toList (.line (by decide) (.line (by decide) (.last (by decide) (by decide))))
    (.coord (b := "  ".toList) (w := "1".toList) (l := "   2 5\r".toList) (by decide) (num _ _ (by decide) (by decide) (by decide)) (by unfold Ends; decide) (by decide)
      (.coord (b := "   ".toList) (w := "2".toList) (l := " 5\r".toList) (by decide) (num _ _ (by decide) (by decide) (by decide)) (by unfold Ends; decide) (by decide)
        (.value (b := " ".toList) (w := "5".toList) (t := "\r".toList) (by decide) (wholeNum_value (by decide) (by decide) (by decide)) (.inr rfl))))
    ⟨.coord (b := []) (w := "03".toList) (l := "\t+1 7 # seven\r".toList) (by decide) (num _ _ (by decide) (by decide) (by decide)) (by unfold Ends; decide) (by decide)
      (.coord (b := "\t".toList) (w := "+1".toList) (l := " 7 # seven\r".toList) (by decide) ⟨['+'], ['1'], rfl, .inr rfl, by decide, by decide, by decide⟩
        (by unfold Ends; decide) (by decide)
        (.value (b := " ".toList) (w := "7".toList) (t := " # seven\r".toList) (by decide) (wholeNum_value (by decide) (by decide) (by decide)) (by unfold Ends; decide))),
     .coord (b := []) (w := "2".toList) (l := " 4 12".toList) (by decide) (num _ _ (by decide) (by decide) (by decide)) (by unfold Ends; decide) (by decide)
      (.coord (b := " ".toList) (w := "4".toList) (l := " 12".toList) (by decide) (num _ _ (by decide) (by decide) (by decide)) (by unfold Ends; decide) (by decide)
        (.value (b := " ".toList) (w := "12".toList) (t := []) (by decide) (wholeNum_value (by decide) (by decide) (by decide)) (by unfold Ends; decide))), trivial⟩
    (by decide) (.inl rfl)
  rw [h]
  decide +kernel

/-- The order is found by counting words separated by blanks: a file whose first line is separated by tabs is read as a
scalar, whose value is the first coordinate. -/
theorem tns_tab_fails : readTns wholeNum none "1\t2\t5\n2\t2\t7\n".toList = .ok ([], [([], 1), ([], 2)]) := by decide +kernel

/-- A blank before the carriage return of the first line makes the order one larger; values are read as coordinates. -/
theorem tns_blank_return_fails :
    readTns wholeNum none "1 2 5 \r\n2 2 7 \r\n".toList = .ok ([2, 2, 7], [([0, 1, 4], 0), ([1, 1, 6], 0)]) := by decide +kernel

/-- An empty line at the end adds a component with negative coordinates. -/
theorem tns_empty_line_fails : readTns wholeNum none "1 2 5\n\n".toList = .ok ([1, 2], [([0, 1], 5), ([-1, -1], 0)]) := by decide +kernel

/-- A comment is read as a component with negative coordinates. -/
theorem tns_comment_fails : readTns wholeNum none "1 2 5\n# end\n".toList = .ok ([1, 2], [([0, 1], 5), ([-1, -1], 0)]) := by decide +kernel

/-- Coordinates counted from zero are accepted, and become negative. -/
theorem tns_zero_based_fails : readTns wholeNum none "0 0 5\n1 1 6\n".toList = .ok ([1, 1], [([-1, -1], 5), ([0, 0], 6)]) := by decide +kernel

/-- A line without its value is accepted, with the value zero. -/
theorem tns_short_line_fails : readTns wholeNum none "1 2 5\n2 2\n".toList = .ok ([2, 2], [([0, 1], 5), ([1, 1], 0)]) := by decide +kernel

/-- A coordinate below `INT_MIN` wraps around to a coordinate that the file does not have. -/
theorem tns_wrapped_fails : readTns wholeNum none "-4294967293 5\n".toList = .ok ([3], [([2], 5)]) := by decide +kernel

/-! ### MTX -/

/-- A coordinate file of any layout — any white space in the header, any number of comments, any white space in the
line of the dimensions and in the entries, empty lines at the end — is read as the dimensions and the entries it lists,
and for symmetric files those mirrored.
Missing: files without entries (`FileIO.mtx_empty_fails`), an empty line before the dimensions, comments between the
entries, and files that contradict their header, see the theorems below. -/
theorem mtx_any_layout_partial (N : Num V) (fmt : Option Nat) (header dl : List Char) (comments entries extra : List (List Char)) (text : List Char)
    (type sym : List Char) (dims : List Nat) (dws : List (List Char)) (comps : List (List Nat × V))
    (ht : Text (header :: (comments ++ dl :: (entries ++ extra))) text)
    (hh : Words ["%%MatrixMarket".toList, type, "coordinate".toList, "real".toList, sym] header)
    (hty : type = "matrix".toList ∨ type = "tensor".toList) (hsy : sym = "general".toList ∨ sym = "symmetric".toList)
    (h2 : sym = "symmetric".toList → dims.length = 2) (hcm : ∀ l ∈ comments, Comment l)
    (hdl : Words dws dl) (hdw : Each (fun n w => Numeral w n) (dims ++ [comps.length]) dws)
    (hd : ∀ d ∈ dims, 0 < d ∧ d ≤ 2147483647) (hne : comps ≠ []) (hlen : comps.length ≤ 2147483647)
    (hen : Each (Line N) comps entries) (hc : ∀ c ∈ comps, InRange dims c.1) (hx : ∀ l ∈ extra, Blank l)
    (hf : fmt = none ∨ fmt = some dims.length) :
    readMtx N fmt text = .ok (dims.map (fun (d : Nat) => (d : Int)), toInt (mirrored (decide (sym = "symmetric".toList)) comps)) := by
  have hin : ∀ (dims c : List Nat), InRange dims c → (∀ d ∈ dims, d ≤ 2147483647) → c.length = dims.length ∧ ∀ k ∈ c, (k : Int) + 1 ≤ intMax := by
    intro dims
    induction dims with
    | nil =>
      intro c h _
      cases c with
      | nil => simp
      | cons _ _ => exact h.elim
    | cons d ds ih =>
      intro c h hb
      cases c with
      | nil => exact h.elim
      | cons k ks =>
        obtain ⟨i1, i2⟩ := ih ks h.2 fun x hx => hb x (by simp [hx])
        refine ⟨by simp [i1], fun x hx => ?_⟩
        simp only [List.mem_cons] at hx
        rcases hx with rfl | hx
        · have h1 : x < d := h.1
          have h2 := hb d (by simp)
          unfold intMax; omega
        · exact i2 x hx
  have hcs : ∀ c ∈ comps, c.1.length = dims.length ∧ ∀ k ∈ c.1, (k : Int) + 1 ≤ intMax :=
    fun c hc' => hin dims c.1 (hc c hc') fun d hd' => (hd d hd').2
  have hpos : 0 < comps.length := List.length_pos_iff.mpr hne
  obtain ⟨hskip, hdims⟩ := dims_line (rest := entries ++ extra) hcm hdl hdw hd ⟨hpos, hlen⟩
  have hlast : ((dims ++ [comps.length]).map (fun (n : Nat) => (n : Int))).getLast? = some (comps.length : Int) := by simp
  have hdrop : ((dims ++ [comps.length]).map (fun (n : Nat) => (n : Int))).dropLast = dims.map (fun (n : Nat) => (n : Int)) := by simp
  obtain ⟨xs, vs, hl⟩ := linesMtx_spec (N := N) (order := dims.length) extra hx comps entries hen hcs
  unfold readMtx
  rw [lines_text ht]
  simp only [kind_words hh hty hsy]
  unfold readCoordinate
  simp only [hskip, hdims, Outcome.bind, hlast, hdrop, List.length_map]
  have hsym : ¬ ((decide (sym = "symmetric".toList)) = true ∧ dims.length ≠ 2) := by
    rintro ⟨h1, h3⟩
    exact h3 (h2 (of_decide_eq_true h1))
  rw [if_neg hsym]
  have ec : create fmt dims.length () = .ok () := by rcases hf with rfl | rfl <;> simp [create]
  simp only [hl, ec, Int.toNat_natCast]
  rw [insertsMtx_spec (fun c hc' => (hcs c hc').1) comps.length 0 (by omega)]
  simp only [List.drop_zero]
  rw [mirror_toInt]
  intro hs c hc'
  rw [(hcs c hc').1, h2 (of_decide_eq_true hs)]

/-- A coordinate that does not fit into an `int` is rejected, wherever it stands. -/
theorem mtx_large_rejected (N : Num V) (fmt : Option Nat) (header dl : List Char) (comments entries extra : List (List Char)) (text : List Char)
    (type sym : List Char) (dims : List Nat) (dws : List (List Char)) (comps : List (List Nat × V))
    (ht : Text (header :: (comments ++ dl :: (entries ++ extra))) text)
    (hh : Words ["%%MatrixMarket".toList, type, "coordinate".toList, "real".toList, sym] header)
    (hty : type = "matrix".toList ∨ type = "tensor".toList) (hsy : sym = "general".toList ∨ sym = "symmetric".toList)
    (hcm : ∀ l ∈ comments, Comment l) (hdl : Words dws dl) (hdw : Each (fun n w => Numeral w n) (dims ++ [comps.length]) dws)
    (hd : ∀ d ∈ dims, 0 < d ∧ d ≤ 2147483647) (hlen : comps.length ≤ 2147483647)
    (hen : Each (Line N) comps entries) (hc : ∀ c ∈ comps, c.1.length = dims.length) (hbig : ∃ c ∈ comps, ∃ k ∈ c.1, 2147483647 ≤ k) :
    readMtx N fmt text = .rejected := by
  have hpos : 0 < comps.length := by
    obtain ⟨c, hc, _⟩ := hbig
    exact List.length_pos_of_mem hc
  obtain ⟨hskip, hdims⟩ := dims_line (rest := entries ++ extra) hcm hdl hdw hd ⟨hpos, hlen⟩
  have hlast : ((dims ++ [comps.length]).map (fun (n : Nat) => (n : Int))).getLast? = some (comps.length : Int) := by simp
  have hdrop : ((dims ++ [comps.length]).map (fun (n : Nat) => (n : Int))).dropLast = dims.map (fun (n : Nat) => (n : Int)) := by simp
  have hl := linesMtx_large (N := N) (order := dims.length) extra comps entries hen hc (by
    obtain ⟨x, hx, k, hk, h⟩ := hbig
    exact ⟨x, hx, k, hk, by simp only [intMax]; omega⟩)
  unfold readMtx
  rw [lines_text ht]
  simp only [kind_words hh hty hsy]
  unfold readCoordinate
  simp only [hskip, hdims, Outcome.bind, hlast, hdrop, List.length_map, hl]
  split <;> rfl

/-- A symmetric file with comments, tabs, and empty lines at its end. -/
example : readMtx wholeNum none "%%MatrixMarket  matrix\tcoordinate real symmetric\r\n% by hand\n  %\n 3\t3 2\n1 1 5\n 3  1\t07\n\n \n".toList =
    .ok ([3, 3], [([0, 0], 5), ([2, 0], 7), ([0, 2], 7)]) := by
  have num : ∀ (w : List Char) (n : Nat), w ≠ [] → (∀ c ∈ w, isDigit c = true) → decVal w = n → Numeral w n :=
    fun w n h1 h2 h3 => ⟨[], w, rfl, .inl rfl, h1, h2, h3⟩
  have h := mtx_any_layout_partial wholeNum none "%%MatrixMarket  matrix\tcoordinate real symmetric\r".toList " 3\t3 2".toList
    ["% by hand".toList, "  %".toList] ["1 1 5".toList, " 3  1\t07".toList] [[], [' ']]
    "%%MatrixMarket  matrix\tcoordinate real symmetric\r\n% by hand\n  %\n 3\t3 2\n1 1 5\n 3  1\t07\n\n \n".toList
    "matrix".toList "symmetric".toList [3, 3] ["3".toList, "3".toList, "2".toList] [([0, 0], 5), ([2, 0], 7)]
    (.line (by decide) (.line (by decide) (.line (by decide) (.line (by decide) (.line (by decide) (.line (by decide) (.line (by decide)
      (.line (by decide) .nil))))))))
    (.cons (b := []) (w := "%%MatrixMarket".toList) (l := "  matrix\tcoordinate real symmetric\r".toList) (by unfold Blank; decide) (by decide) (by decide) (by unfold Ends; decide)
     (.cons (b := "  ".toList) (w := "matrix".toList) (l := "\tcoordinate real symmetric\r".toList) (by unfold Blank; decide) (by decide) (by decide) (by unfold Ends; decide)
      (.cons (b := "\t".toList) (w := "coordinate".toList) (l := " real symmetric\r".toList) (by unfold Blank; decide) (by decide) (by decide) (by unfold Ends; decide)
       (.cons (b := " ".toList) (w := "real".toList) (l := " symmetric\r".toList) (by unfold Blank; decide) (by decide) (by decide) (by unfold Ends; decide)
        (.cons (b := " ".toList) (w := "symmetric".toList) (l := "\r".toList) (by unfold Blank; decide) (by decide) (by decide) (by unfold Ends; decide)
         (.nil (b := "\r".toList) (by unfold Blank; decide)))))))
    (.inl rfl) (.inr rfl) (fun _ => rfl)
    (by
      intro l hl
      simp only [List.mem_cons, List.not_mem_nil, or_false] at hl
      rcases hl with rfl | rfl
      · exact ⟨[], " by hand".toList, by unfold Blank; decide, rfl⟩
      · exact ⟨"  ".toList, [], by unfold Blank; decide, rfl⟩)
    (.cons (b := " ".toList) (w := "3".toList) (l := "\t3 2".toList) (by unfold Blank; decide) (by decide) (by decide) (by unfold Ends; decide)
     (.cons (b := "\t".toList) (w := "3".toList) (l := " 2".toList) (by unfold Blank; decide) (by decide) (by decide) (by unfold Ends; decide)
      (.cons (b := " ".toList) (w := "2".toList) (l := []) (by unfold Blank; decide) (by decide) (by decide) (by unfold Ends; decide)
       (.nil (b := []) (by unfold Blank; decide)))))
    ⟨num _ _ (by decide) (by decide) (by decide), num _ _ (by decide) (by decide) (by decide), num _ _ (by decide) (by decide) (by decide), trivial⟩
    (by decide) (by decide) (by decide)
    ⟨.coord (b := []) (w := "1".toList) (l := " 1 5".toList) (by decide) (num _ _ (by decide) (by decide) (by decide)) (by unfold Ends; decide) (by decide)
      (.coord (b := " ".toList) (w := "1".toList) (l := " 5".toList) (by decide) (num _ _ (by decide) (by decide) (by decide)) (by unfold Ends; decide) (by decide)
        (.value (b := " ".toList) (w := "5".toList) (t := []) (by decide) (wholeNum_value (by decide) (by decide) (by decide)) (by unfold Ends; decide))),
     .coord (b := " ".toList) (w := "3".toList) (l := "  1\t07".toList) (by decide) (num _ _ (by decide) (by decide) (by decide)) (by unfold Ends; decide) (by decide)
      (.coord (b := "  ".toList) (w := "1".toList) (l := "\t07".toList) (by decide) (num _ _ (by decide) (by decide) (by decide)) (by unfold Ends; decide) (by decide)
        (.value (b := "\t".toList) (w := "07".toList) (t := []) (by decide) (wholeNum_value (by decide) (by decide) (by decide)) (by unfold Ends; decide))), trivial⟩
    (by
      intro c hc
      simp only [List.mem_cons, List.not_mem_nil, or_false] at hc
      rcases hc with rfl | rfl
      · exact ⟨by decide, by decide, trivial⟩
      · exact ⟨by decide, by decide, trivial⟩)
    (by unfold Blank; decide) (.inl rfl)
  rw [h]
  decide +kernel

/-- An empty line right after the header, before the dimensions: the last element of an empty vector is taken. -/
theorem mtx_empty_line_fails : readMtx wholeNum none "%%MatrixMarket matrix coordinate real general\n\n3 3 1\n1 1 5\n".toList = .undefined := by
  decide +kernel

/-- A comment between the entries is read as an entry; the last entry is dropped. -/
theorem mtx_comment_fails :
    readMtx wholeNum none "%%MatrixMarket matrix coordinate real general\n3 3 2\n1 1 5\n% half\n2 2 7\n".toList =
      .ok ([3, 3], [([0, 0], 5), ([-1, -1], 0)]) := by decide +kernel

/-- Entries outside of the dimensions that the file declares are accepted. -/
theorem mtx_outside_fails :
    readMtx wholeNum none "%%MatrixMarket matrix coordinate real general\n3 3 1\n7 9 5\n".toList = .ok ([3, 3], [([6, 8], 5)]) := by decide +kernel

/-- Fewer entries than declared: arrays are read behind their end. -/
theorem mtx_truncated_fails :
    readMtx wholeNum none "%%MatrixMarket matrix coordinate real general\n3 3 2\n1 1 5\n".toList = .undefined := by decide +kernel

/-- More entries than declared: the last ones are dropped. -/
theorem mtx_surplus_fails :
    readMtx wholeNum none "%%MatrixMarket matrix coordinate real general\n3 3 1\n1 1 5\n2 2 7\n".toList = .ok ([3, 3], [([0, 0], 5)]) := by decide +kernel

/-! ### Harwell-Boeing -/

/-- A matrix written as a Harwell-Boeing file and read without packing has its components, column by column. -/
theorem rb_unpacked_partial (N : Num V) (isWhole : V → Bool) (key : List Char) (hkey : '\n' ∉ key) (nrow : Nat) (cols : List (List (Nat × V)))
    (hv : ∀ v ∈ cols.flatten.map (·.2), (rbValue N isWhole v ≠ [] ∧ ∀ c ∈ rbValue N isWhole v, isSpace c = false) ∧ N.read (rbValue N isWhole v) = v) :
    ∃ t, readRb N false (writeRB N isWhole key nrow cols.length (starts 0 cols) (cols.flatten.map (·.1)) (cols.flatten.map (·.2))) = some t ∧
      t.storage = toInt (columns 0 cols) ∧ t.needsPack = true := by
  have h := rb_round_trip N isWhole key hkey nrow cols.length (starts 0 cols) (cols.flatten.map (·.1)) (cols.flatten.map (·.2))
    (by rw [starts_length]) (by rw [List.length_map, List.length_map]) hv
  have hc := cscColumns_spec cols 0 []
  simp only [List.nil_append, List.length_nil] at hc
  refine ⟨⟨toInt (columns 0 cols), [], true, true⟩, ?_, rfl, rfl⟩
  unfold readRb
  rw [h]
  simp only [Option.bind_some, List.map_map]
  have e : List.map ((fun (i : Nat) => (i : Int)) ∘ fun x : Nat × V => x.1) cols.flatten = cols.flatten.map fun x => (x.1 : Int) := rfl
  rw [e, hc]
  rfl

/-- Packing is what `read` does by default, and what using the tensor in an expression does: it replaces the storage by
the components inserted, of which there are none. Every matrix read from a Harwell-Boeing file becomes zero. -/
theorem rb_packed_fails (N : Num V) (text : List Char) :
    (∀ t, readRb N true text = some t → t.storage = []) ∧
    (∀ t, readRb N false text = some t → t.pack.storage = []) := by
  unfold readRb
  constructor
  · intro t h
    obtain ⟨r, _, h⟩ := Option.bind_eq_some_iff.mp h
    obtain ⟨cs, _, rfl⟩ := Option.map_eq_some_iff.mp h
    rfl
  · intro t h
    obtain ⟨r, _, h⟩ := Option.bind_eq_some_iff.mp h
    obtain ⟨cs, _, rfl⟩ := Option.map_eq_some_iff.mp h
    rfl

/-- A matrix with an empty column. -/
example := rb_unpacked_partial natNum (fun _ => false) "A".toList (by decide) 3 [[(0, 5), (2, 6)], [], [(1, 7)]] (fun v _ => natNum_rb v)

/-- The fields of a Harwell-Boeing file have fixed widths and may touch each other (here `2I1` for the pointers 1, 2):
they are read as one number. -/
theorem rb_widths_fails :
    readRB wholeNum "title key\n3 1 1 1 0\nRUA 1 1 1 0\n(2I1) (1I1) (1F1.0)\n12\n1\n5\n".toList = some (1, 1, [11], [0], [5]) := by decide +kernel

end Verif.Foreign

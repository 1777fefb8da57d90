import Verif.Einsum.Accepted
import Verif.Einsum.Value

/-!
# Einsum strings (C74)

`einsum formatOrder tensors s` is the model of the parser on the string `s`, for operands given by their
dimensions.  The specification (`Spec.lean`) knows einsum expressions as comma separated subscripts with
ellipses, their text, the labels of operands and result, and the value of a contraction.
-/

namespace Verif.Einsum

/-- **C74.**  For every well-formed einsum expression and operands it fits, and every way of putting spaces
into its text, the parser builds an assignment whose operands and result are indexed by the labels of the
expression, each label renamed to a letter of its own (letters to themselves).  The result has the extents of
its labels as dimensions and, whatever the operands hold, the value of the contraction.  Missing:
expressions for a single scalar operand, an output ellipsis that stands for nothing in an output without
letters, and more broadcast dimensions than there are letters left, for all of which it fails
(`scalar_fails`, `empty_output_fails`, `letters_fails`).  Operands have at most 65 modes. -/
theorem einsum_partial (e : Ein) (tensors : List (List Nat)) (formatOrder : Nat) (s : List Char)
    (hs : s ≠ []) (ht : s.filter (fun c => c != ' ') = e.text) (hwf : e.WF (tensors.map List.length))
    (hletters : width e.inputs (tensors.map List.length) ≤
      (alphabet.filter (fun c => !decide (c ∈ e.letters))).length)
    (hmodes : ∀ t ∈ tensors, t.length ≤ 65)
    (hscalar : inputLabels e.inputs (tensors.map List.length) ≠ [[]])
    (hempty : ∀ o, e.output = some o → o.ell = true → e.outputLabels (tensors.map List.length) ≠ [])
    (hformat : formatOrder = 0 ∨ formatOrder = (e.outputLabels (tensors.map List.length)).length) :
    ∃ (r : Result) (ρ : Label → Char), einsum formatOrder tensors s = .ok r ∧
      (∀ c, ρ (.letter c) = c) ∧
      (∀ a ∈ (inputLabels e.inputs (tensors.map List.length)).flatten,
        ∀ b ∈ (inputLabels e.inputs (tensors.map List.length)).flatten, ρ a = ρ b → a = b) ∧
      r.inputs = (inputLabels e.inputs (tensors.map List.length)).map (List.map ρ) ∧
      r.output = (e.outputLabels (tensors.map List.length)).map ρ ∧
      r.shape = (e.outputLabels (tensors.map List.length)).map
        (extent (labelled (inputLabels e.inputs (tensors.map List.length)) tensors)) ∧
      ∀ (values : List (List Nat → Int)) (x : List Nat),
        contract r.inputs tensors r.output values x =
          contract (inputLabels e.inputs (tensors.map List.length)) tensors
            (e.outputLabels (tensors.map List.length)) values x := by
  have hu : width e.inputs (tensors.map List.length) ≤ (unusedSymbols e.text).length := by
    rw [unused_length hwf]; exact hletters
  have hinj : InjOn (rename (unusedSymbols e.text)) (inputLabels e.inputs (tensors.map List.length)).flatten := by
    intro a ha b hb h
    have key : ∀ l ∈ (inputLabels e.inputs (tensors.map List.length)).flatten,
        (∀ k, l = .bcast k → k < (unusedSymbols e.text).length) ∧ (∀ c, l = .letter c → c ∉ unusedSymbols e.text) := by
      intro l hl
      rcases flat_mem hl with ⟨c, hc, rfl⟩ | ⟨k, hk, rfl⟩
      · refine ⟨fun k h => (by cases h), ?_⟩
        intro d hd
        simp only [Label.letter.injEq] at hd
        subst hd
        exact fun hm => ((mem_unused hwf).1 hm).2 hc
      · refine ⟨?_, fun c h => (by cases h)⟩
        intro j hj
        simp only [Label.bcast.injEq] at hj
        omega
    exact rename_inj (unused_nodup _) (key a ha).1 (key b hb).1 (key a ha).2 (key b hb).2 h
  have hconstruct : einsum formatOrder tensors s = parseSubscripts formatOrder tensors e.text := by
    unfold einsum
    rw [construct_text hwf hs ht, bind_ok]
  refine ⟨_, rename (unusedSymbols e.text),
    hconstruct.trans (parse_text hwf hu hmodes hscalar hempty hformat), fun _ => rfl, hinj, rfl, rfl, ?_, ?_⟩
  · dsimp only
    rw [labelled_map, List.map_map]
    apply List.map_congr_left
    intro a ha
    simp only [Function.comp]
    apply extent_map hinj _ (out_mem_flat hwf ha)
    intro p hp
    rw [← labelled_fst (inputLabels e.inputs (tensors.map List.length)) tensors
      (inputLabels_lengths hwf.count hwf.fits)]
    exact List.mem_map_of_mem hp
  · intro values x
    exact contract_map hinj (fun a ha => out_mem_flat hwf ha) tensors values x

/-- The case below: `"...ij, jk -> ...ik"` for operands of orders 4 and 2. -/
def batched : Ein := ⟨[⟨[], true, ['i', 'j']⟩, ⟨['j', 'k'], false, []⟩], some ⟨[], true, ['i', 'k']⟩⟩

theorem batched_wf : batched.WF [4, 2] where
  lettersIn := by decide +kernel
  lettersOut := by
    intro o h c hc
    have : o = ⟨[], true, ['i', 'k']⟩ := by simpa [batched] using h.symm
    subst this
    have : ∀ c ∈ (⟨[], true, ['i', 'k']⟩ : Sub).letters, c ∈ alphabet := by decide +kernel
    exact this c hc
  nonempty := by decide
  count := by decide
  fits := by
    intro p hp
    simp [batched] at hp
    rcases hp with h | h <;> subst h <;> simp [Sub.Fits, Sub.letters]
  known := by
    intro o h c hc
    have : o = ⟨[], true, ['i', 'k']⟩ := by simpa [batched] using h.symm
    subst this
    have : ∀ c ∈ (⟨[], true, ['i', 'k']⟩ : Sub).letters, c ∈ batched.letters := by decide +kernel
    exact this c hc

/-- The hypotheses can be met: a batched product with two broadcast dimensions, spaces in the text. -/
example : ∃ r, einsum 4 [[2, 3, 4, 5], [5, 6]] "...ij, jk -> ...ik".toList = .ok r ∧ r.shape = [2, 3, 4, 6] := by
  obtain ⟨r, ρ, h1, _, _, _, _, h2, _⟩ := einsum_partial batched [[2, 3, 4, 5], [5, 6]] 4
    "...ij, jk -> ...ik".toList (by decide) (by decide +kernel) batched_wf (by decide +kernel) (by decide)
    (by decide +kernel) (by intro _ _ _; decide +kernel) (by decide +kernel)
  exact ⟨r, h1, by rw [h2]; decide +kernel⟩

/-- Without an arrow: the product of two matrices. -/
example : einsum 0 [[3, 4], [4, 5]] "ij,jk".toList = .ok ⟨[['i', 'j'], ['j', 'k']], ['i', 'k'], [3, 5]⟩ := by
  decide +kernel

/-- **C74.**  The other direction: a string the parser accepts is, without its spaces, the text of a well-formed
expression for the operands.  Missing: strings that begin with `-` or end in `-`, some of which are accepted
although they are not (`missing_input_fails`, `reversed_arrow_fails`). -/
theorem accepted_partial (tensors : List (List Nat)) (formatOrder : Nat) (s : List Char) (r : Result)
    (hlast : (s.filter (fun c => c != ' ')).getLast? ≠ some '-')
    (hfirst : (s.filter (fun c => c != ' ')).head? ≠ some '-')
    (h : einsum formatOrder tensors s = .ok r) :
    ∃ e : Ein, e.WF (tensors.map List.length) ∧ e.text = s.filter (fun c => c != ' ') := by
  unfold einsum at h
  obtain ⟨t, h1, h2⟩ := bind_eq_ok h
  obtain ⟨rfl, hch⟩ := construct_ok h1
  exact parse_ok hch hlast hfirst h2

example : (" ij, jk ".toList.filter (fun c => c != ' ')).getLast? ≠ some '-' ∧
    (" ij, jk ".toList.filter (fun c => c != ' ')).head? ≠ some '-' ∧
    einsum 0 [[3, 4], [4, 5]] " ij, jk ".toList = .ok ⟨[['i', 'j'], ['j', 'k']], ['i', 'k'], [3, 5]⟩ := by
  decide +kernel

/-- A single scalar operand is undefined behaviour, with `"->"` and with `"..."`, although both are well
formed: the split leaves no piece and its first element is taken. -/
theorem scalar_fails :
    (∀ formatOrder, einsum formatOrder [[]] "->".toList = .ub) ∧
    (∀ formatOrder, einsum formatOrder [[]] "...".toList = .ub) ∧
    (⟨[⟨[], false, []⟩], some ⟨[], false, []⟩⟩ : Ein).WF [0] ∧
    (⟨[⟨[], false, []⟩], some ⟨[], false, []⟩⟩ : Ein).text = "->".toList ∧
    (⟨[⟨[], true, []⟩], none⟩ : Ein).WF [0] ∧ (⟨[⟨[], true, []⟩], none⟩ : Ein).text = "...".toList := by
  refine ⟨fun _ => rfl, fun _ => rfl, ⟨?_, ?_, ?_, ?_, ?_, ?_⟩, rfl, ⟨?_, ?_, ?_, ?_, ?_, ?_⟩, rfl⟩ <;>
    simp [Sub.letters, Sub.Fits]

/-- The inner product of two vectors whose ellipses stand for nothing: with `"i...,i..."` it is accepted, with
`"i...,i...->..."`, which means the same, it is rejected, because the empty output is taken for no output and
the three dots are looked for among the inputs. -/
theorem empty_output_fails :
    einsum 0 [[3], [3]] "i...,i...->...".toList = .parseError ∧
    einsum 0 [[3], [3]] "i...,i...".toList = .ok ⟨[['i'], ['i']], [], []⟩ ∧
    (⟨[⟨['i'], true, []⟩, ⟨['i'], true, []⟩], some ⟨[], true, []⟩⟩ : Ein).text = "i...,i...->...".toList ∧
    (⟨[⟨['i'], true, []⟩, ⟨['i'], true, []⟩], some ⟨[], true, []⟩⟩ : Ein).WF [1, 1] := by
  refine ⟨by decide +kernel, by decide +kernel, rfl, ⟨by decide +kernel, ?_, by simp, by simp, ?_, ?_⟩⟩
  · intro o h c hc
    simp only [Option.some.injEq] at h
    subst h; simp [Sub.letters] at hc
  · intro p hp
    simp at hp
    subst hp; simp [Sub.Fits, Sub.letters]
  · intro o h c hc
    simp only [Option.some.injEq] at h
    subst h; simp [Sub.letters] at hc

/-- An ellipsis for more dimensions than there are letters left is undefined behaviour: the iterator is moved in
front of the beginning of the string. -/
theorem letters_fails (formatOrder n : Nat) (h : 52 < n) :
    einsum formatOrder [List.replicate n 1] "...".toList = .ub := by
  have h1 : construct "...".toList = .ok "...".toList := by decide +kernel
  have h2 : exprHasOutput "...".toList = .ok false := by decide +kernel
  have h3 : splitComma "...".toList = ["...".toList] := by decide +kernel
  have h4 : (unusedSymbols "...".toList).length = 52 := by decide +kernel
  have h5 : '.' ∈ "...".toList := by decide
  have h6 : ¬("...".toList.count '.' ≠ 3 ∨ breakEllipse "...".toList = none) := by decide +kernel
  have h7 : ellipseCount n "...".toList = n := by
    have : "...".toList.length = 3 := by decide
    unfold ellipseCount
    rw [if_pos (by omega), this]
    omega
  unfold einsum parseSubscripts
  rw [h1, bind_ok, h2, bind_ok]
  simp only [Bool.false_eq_true, if_false, bind_ok, h3]
  unfold expandEllipses
  rw [if_neg (by simp), if_pos h5]
  simp only [List.map_cons, List.map_nil, List.length_replicate, expandAll]
  unfold expandOne
  rw [if_pos h5, if_neg h6]
  dsimp only
  rw [h7, if_neg (by omega), if_neg (by omega)]
  unfold lastChars
  rw [Int.toNat_natCast, h4, if_neg (by omega)]
  rfl

example : (52 : Nat) < 53 := by decide

/-- A string without anything in front of the arrow is read as if the arrow stood behind it: `"->i"`, which names
an output letter that no operand has, sums the vector. -/
theorem missing_input_fails (n : Nat) :
    einsum 0 [[n]] "->i".toList = .ok ⟨[['i']], [], []⟩ ∧ ¬ ∃ e : Ein, e.WF [1] ∧ e.text = "->i".toList := by
  refine ⟨rfl, ?_⟩
  rintro ⟨e, hwf, ht⟩
  cases ho : e.output with
  | none =>
    rw [text_none ho] at ht
    have : '-' ∈ joinComma (e.inputs.map Sub.text) := by rw [ht]; decide
    exact join_no hwf.lettersIn dash_na (by decide) (by decide) this
  | some o =>
    rw [text_some ho] at ht
    have hd := join_no (ss := e.inputs) hwf.lettersIn dash_na (by decide) (by decide)
    cases hj : joinComma (e.inputs.map Sub.text) with
    | nil =>
      rw [hj] at ht
      have hot : o.text = ['i'] := by
        have : "->i".toList = ['-', '>', 'i'] := by decide
        rw [this] at ht
        simpa using ht
      have hne : e.inputs.map Sub.text ≠ [] := by simpa using hwf.nonempty
      have hjn := join_nil hne hj
      match hi : e.inputs, hjn with
      | [s], hjn =>
        simp only [List.map_cons, List.map_nil, List.cons.injEq, and_true] at hjn
        obtain ⟨he, hb, ha⟩ := text_nil hjn
        have := hwf.fits (s, 1) (by rw [hi]; simp)
        unfold Sub.Fits Sub.letters at this
        simp [he, hb, ha] at this
      | [], hjn => simp at hjn
      | _ :: _ :: _, hjn => simp at hjn
    | cons c l =>
      rw [hj] at ht hd
      have : c = '-' := by
        have e1 : "->i".toList = ['-', '>', 'i'] := by decide
        rw [e1] at ht
        simp only [List.cons_append, List.cons.injEq] at ht
        exact ht.1
      subst this
      simp at hd

/-- An arrow the wrong way round at the end of the string is not an error: its two characters become the indices of
two modes. -/
theorem reversed_arrow_fails :
    einsum 0 [[3, 4, 5, 6]] "ij>-".toList = .ok ⟨[['i', 'j', '>', '-']], ['-', '>', 'i', 'j'], [6, 5, 3, 4]⟩ := by
  decide +kernel

/-- A comma in the output passes the check of the output characters, since the inputs contain commas, and an
exception of the standard library leaves the parser instead of a parse error. -/
theorem comma_output_fails : einsum 0 [[3], [4]] "i,j->i,j".toList = .uncaught := by decide +kernel

/-- The check that a letter has the same dimension everywhere looks up the position instead of the letter: a
mismatch is not found, and the result gets the dimension of the first occurrence. -/
theorem dimension_check_fails (n m : Nat) :
    einsum 0 [[n], [m]] "i,i->i".toList = .ok ⟨[['i'], ['i']], ['i'], [n]⟩ := rfl

/-- The same letter twice in an operand, which the documentation excludes, and twice in the output are accepted. -/
theorem repeated_letter_fails (n m : Nat) :
    einsum 0 [[n, m]] "ii".toList = .ok ⟨[['i', 'i']], [], []⟩ ∧
    einsum 0 [[n, m]] "ij->ii".toList = .ok ⟨[['i', 'j']], ['i', 'i'], [n, n]⟩ := ⟨rfl, rfl⟩

end Verif.Einsum

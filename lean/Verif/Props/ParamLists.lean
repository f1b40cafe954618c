import Verif.Props.Params

/-! C50: the four listings of the parameters of a circuit speak about the same parameters in the same
order. -/

namespace SQ

/-- Under PyTorch, `parameters_elems`, `parameters`, `parameters_dict` and `get_params_type` change
nothing; the elements and the values are, entry by entry, the keys and values of the dictionary, and
the i-th type is the class of the i-th element: that of the element with this number in the circuit,
or Loop (`none`) for a loop. -/
theorem C50_listings (c : CircSpec) (n : ℕ) (rest : Build → Except PyErr Unit) (w : PWorld)
    (ht : w.torch = true) :
    ∃ ks ts types,
      POp.parametersElems.exec c n rest w = (.ok (.comps ks), w) ∧
      POp.parameters.exec c n rest w = (.ok (.tensors ts), w) ∧
      POp.parametersDict.exec c n rest w = (.ok (.dict w.params), w) ∧
      POp.getParamsType.exec c n rest w = (.ok (.kinds types), w) ∧
      ks.length = w.params.length ∧ ts.length = w.params.length ∧
      types.length = w.params.length ∧
      ∀ (i : ℕ) (k : Comp) (t : TId), w.params[i]? = some (k, t) →
        ks[i]? = some k ∧ ts[i]? = some t ∧
        (∀ e, k = .elem e → types[i]? = some (some (c.O.elem e).kind)) ∧
        (∀ l, k = .loop l → types[i]? = some none) := by
  refine ⟨w.params.map Prod.fst, w.params.map Prod.snd,
    w.params.map (fun p => compKind c.O p.1), ?_, ?_, ?_, ?_, by simp, by simp, by simp, ?_⟩
  · simp [POp.exec, optimOnly, ht]
  · simp [POp.exec, optimOnly, ht]
  · simp [POp.exec, optimOnly, ht]
  · simp [POp.exec, optimOnly, ht]
  · intro i k t h
    refine ⟨by simp [h], by simp [h], ?_, ?_⟩
    · rintro e rfl; simp [h, compKind]
    · rintro l rfl; simp [h, compKind]

/-- The circuit with parameters 0 and 2 lists two elements, and their classes. -/
theorem C50_listings_example (c : CircSpec) (n : ℕ) (rest : Build → Except PyErr Unit) :
    ∃ ks, POp.parametersElems.exec c n rest (lcWorld true) = (.ok (.comps ks), lcWorld true) ∧
      ks.length = 2 := by
  obtain ⟨ks, ts, types, h1, -, -, -, h2, -⟩ := C50_listings c n rest (lcWorld true) rfl
  exact ⟨ks, h1, by rw [h2]; simp [lcWorld]⟩

end SQ

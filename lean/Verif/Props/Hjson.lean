import Verif.Model.Hjson
/-
C75: `UnmarshalEx` of the hjson codec.
-/
namespace Verif
namespace Hjson

/-- A field of a document: of several with the same name, the last. -/
def Doc.field : Doc → String → Option (Cm × Doc)
  | .obj fields, k => (fields.reverse.find? (·.1 == k)).map (·.2)
  | _, _ => none

/-- What the document has under a path of names. -/
def Doc.at (d : Doc) : List String → Option (Cm × Doc)
  | [] => none
  | [k] => d.field k
  | k :: ks => (d.field k).bind (fun x => Doc.at x.2 ks)

/-- What the maps have under a path of names. -/
def Map.at (m : Map) : List String → Option (String × String × Val)
  | [] => none
  | [k] => m.get k
  | k :: ks => (m.get k).bind (fun x => match x.2.2 with
    | .sub m' => Map.at m' ks
    | .raw _ => none)

mutual
/-- No array anywhere. -/
def Doc.plain : Doc → Bool
  | .obj fields => plainFields fields
  | .arr _ => false
  | _ => true
def plainFields : List (String × Cm × Doc) → Bool
  | [] => true
  | (_, _, d) :: rest => d.plain && plainFields rest
end

/-- The package that stands for a node. -/
def pkg (fl : Bool) (x : Cm × Doc) : String × String × Val := (x.1.before, x.1.key ++ x.1.after, value fl x.2)

theorem get_putFields (fl : Bool) (k : String) : ∀ (fs : List (String × Cm × Doc)) (m : Map),
    (putFields fl m fs).get k = match (Doc.obj fs).field k with
      | some x => some (pkg fl x)
      | none => m.get k
  | [], m => by simp [putFields, Doc.field]
  | (k', cm, d) :: rest, m => by
    rw [putFields, get_putFields fl k rest]
    simp only [Doc.field, List.reverse_cons, List.find?_append]
    cases h : rest.reverse.find? (·.1 == k) with
    | some x => simp
    | none =>
      by_cases e : k' == k
      · simp [Map.get, Map.put, e, pkg]
      · simp [Map.get, Map.put, e]

theorem get_fields (fl : Bool) (fs : List (String × Cm × Doc)) (k : String) :
    (putFields fl [] fs).get k = ((Doc.obj fs).field k).map (pkg fl) := by
  rw [get_putFields]
  cases (Doc.obj fs).field k <;> rfl

theorem plain_field {d : Doc} (h : d.plain = true) {k : String} {x : Cm × Doc} (hk : d.field k = some x) : x.2.plain = true := by
  cases d with
  | obj fs =>
    have key : ∀ fs : List (String × Cm × Doc), plainFields fs = true → ∀ y ∈ fs, y.2.2.plain = true := by
      intro fs
      induction fs with
      | nil => intro _ y hy; cases hy
      | cons f fs ih =>
        obtain ⟨k1, c1, d1⟩ := f
        intro h y hy
        simp only [plainFields, Bool.and_eq_true] at h
        rcases List.mem_cons.1 hy with rfl | hy
        · exact h.1
        · exact ih h.2 y hy
    simp only [Doc.field, Option.map_eq_some_iff] at hk
    obtain ⟨y, hy, rfl⟩ := hk
    exact key fs (by simpa [Doc.plain] using h) y (by simpa using List.mem_of_find?_eq_some hy)
  | _ => cases hk

theorem at_value (fl : Bool) : ∀ (p : List String) (d : Doc), (fl = false ∨ d.plain = true) →
    (match value fl d with
      | .sub m => Map.at m p
      | .raw _ => none) = (d.at p).map (pkg fl)
  | [], d, _ => by cases h : value fl d <;> simp [Map.at, Doc.at]
  | [k], d, hp => by
    cases d with
    | obj fs => simp only [value, Map.at, Doc.at, get_fields]
    | arr es =>
      rcases hp with rfl | h
      · simp [value, Doc.at, Doc.field]
      · simp [Doc.plain] at h
    | _ => simp [value, Doc.at, Doc.field]
  | k :: k2 :: ks, d, hp => by
    cases d with
    | obj fs =>
      simp only [value, Map.at, Doc.at, get_fields]
      cases hf : (Doc.obj fs).field k with
      | none => rfl
      | some x =>
        simp only [Option.map_some, Option.bind_some]
        exact at_value fl (k2 :: ks) x.2 (hp.imp_right (fun h => plain_field h hf))
    | arr es =>
      rcases hp with rfl | h
      · simp [value, Doc.at, Doc.field]
      · simp [Doc.plain] at h
    | _ => simp [value, Doc.at, Doc.field]

/-- **C75** A document that is an object: every path of names leads to the same thing in the document and in the maps, with the comments before it as description and
the ones after the key and after the value as comment, and to nothing else. Missing for the full claim: arrays unless `WithFlattenSlice(false)` is given
(`C75_array_fails`) and documents that are no objects (`C75_root_fails`). -/
theorem C75_decode_partial (fl : Bool) (cm : Cm) (fs : List (String × Cm × Doc)) (h : fl = false ∨ (Doc.obj fs).plain = true) (p : List String) :
    (unmarshalEx fl cm (.obj fs)).at p = ((Doc.obj fs).at p).map (fun x => (x.1.before, x.1.key ++ x.1.after, value fl x.2)) :=
  at_value fl p (.obj fs) h

/-- **C75** And the values: what is no object is there as it is; an object is a map. -/
theorem C75_values (fl : Bool) (d : Doc) (h : fl = false ∨ d.plain = true) :
    (∃ fs m, d = .obj fs ∧ value fl d = .sub m) ∨ value fl d = .raw d := by
  cases d with
  | obj fs => exact .inl ⟨fs, _, rfl, rfl⟩
  | arr es =>
    rcases h with rfl | h
    · exact .inr (by simp [value])
    · simp [Doc.plain] at h
  | _ => exact .inr rfl

theorem get_putElems (fl : Bool) (k : String) (cm : Cm) (d : Doc) : ∀ (es : List (Cm × Doc)) (m : Map),
    (putElems fl m (es ++ [(cm, d)])).get k = if k = "" then some (pkg fl (cm, d)) else m.get k
  | [], m => by
    by_cases e : k = ""
    · subst e; simp [putElems, Map.get, Map.put, pkg]
    · have : ("" == k) = false := by rw [beq_eq_false_iff_ne]; exact fun x => e x.symm
      simp [putElems, Map.get, Map.put, this, e]
  | (c1, d1) :: es, m => by
    rw [List.cons_append, putElems, get_putElems fl k cm d es]
    by_cases e : k = ""
    · simp [e]
    · have : ("" == k) = false := by rw [beq_eq_false_iff_ne]; exact fun x => e x.symm
      simp [Map.get, Map.put, this, e]

/-- **C75** With `flattenSlice`, the default, only the last element of an array is kept, under the empty name. -/
theorem C75_array_fails (k : String) (c0 c c1 : Cm) (es : List (Cm × Doc)) (d : Doc) :
    ∃ m : Map, (unmarshalEx true c0 (.obj [(k, c, .arr (es ++ [(c1, d)]))])).get k = some (c.before, c.key ++ c.after, .sub m) ∧
      m.get "" = some (pkg true (c1, d)) ∧ ∀ k', k' ≠ "" → m.get k' = none := by
  refine ⟨putElems true [] (es ++ [(c1, d)]), ?_, ?_, fun k' hk => ?_⟩
  · simp [unmarshalEx, putFields, Map.get, Map.put, value]
  · rw [get_putElems]; simp
  · rw [get_putElems]; simp [hk, Map.get]

/-- **C75** Documents that are no objects: a string becomes its own name, a number is lost, and an array loses all but its last element even with
`WithFlattenSlice(false)`. -/
theorem C75_root_fails (fl : Bool) (cm : Cm) :
    (∀ s, (unmarshalEx fl cm (.str s)).get s = some (cm.before, cm.key ++ cm.after, .raw (.str s))) ∧
    (∀ n, unmarshalEx fl cm (.other n) = []) ∧
    (∀ es c d k, (unmarshalEx fl cm (.arr (es ++ [(c, d)]))).get k = if k = "" then some (pkg fl (c, d)) else none) := by
  refine ⟨fun s => by simp [unmarshalEx, Map.get, Map.put], fun _ => rfl, fun es c d k => ?_⟩
  simp only [unmarshalEx]
  rw [get_putElems]
  simp [Map.get]

/-- **C75** A document that is null has no entries, nor has an object or an array that is empty; besides these only a number or a
boolean has none. -/
theorem C75_null (fl : Bool) (cm : Cm) (d : Doc) :
    unmarshalEx fl cm d = [] ↔ d = .null ∨ (∃ n, d = .other n) ∨ d = .obj [] ∨ d = .arr [] := by
  constructor
  · intro h
    cases d with
    | null => exact .inl rfl
    | other n => exact .inr (.inl ⟨n, rfl⟩)
    | str s => simp [unmarshalEx, Map.put] at h
    | obj fs =>
      rcases List.eq_nil_or_concat fs with rfl | ⟨fs', ⟨k, c, d⟩, rfl⟩
      · exact .inr (.inr (.inl rfl))
      · exfalso
        have := get_fields fl (fs' ++ [(k, c, d)]) k
        simp only [unmarshalEx, List.concat_eq_append] at h
        rw [h] at this
        simp [Map.get, Doc.field] at this
    | arr es =>
      rcases List.eq_nil_or_concat es with rfl | ⟨es', ⟨c, d⟩, rfl⟩
      · exact .inr (.inr (.inr rfl))
      · exfalso
        have := (C75_root_fails fl cm).2.2 es' c d ""
        rw [List.concat_eq_append] at h
        rw [h] at this
        simp [Map.get] at this
  · rintro (rfl | ⟨n, rfl⟩ | rfl | rfl) <;> rfl

/-- `{ # the app\n app: { name: x # its name\n  on: true } }`. -/
def exDoc : List (String × Cm × Doc) :=
  [("app", ⟨"the app", "", ""⟩, .obj [("name", ⟨"", "", "its name"⟩, .str "x"), ("on", ⟨"", "", ""⟩, .other 1)])]

example : (Doc.obj exDoc).plain = true ∧ ((Doc.obj exDoc).at ["app", "name"]).isSome ∧
    (match (unmarshalEx true ⟨"", "", ""⟩ (.obj exDoc)).at ["app", "name"] with
      | some (d, c, .raw (.str s)) => d == "" && c == "its name" && s == "x"
      | _ => false) = true ∧
    ((unmarshalEx true ⟨"", "", ""⟩ (.obj exDoc)).at ["app"]).map (·.1) = some "the app" ∧
    ((unmarshalEx true ⟨"", "", ""⟩ (.obj exDoc)).at ["app", "size"]).isNone := by decide +kernel

end Hjson
end Verif

import Verif.Model.HclMarshal
/-
C80 writing HCL.
-/
namespace Verif
namespace HclMarshal

mutual
/-- The value of cty says the same as the value of Go (numbers by their value, stringers by their text). -/
def same : Val → Cty → Prop
  | .stringer s, .str s' => s = s'
  | .bool b, .bool b' => b = b'
  | .str s, .str s' => s = s'
  | .int i, .num j => i = j
  | .uint n, .num j => (n : Int) = j
  | .slice l, .list l' => sames l l'
  | _, _ => False
def sames : List Val → List Cty → Prop
  | [], [] => True
  | v :: l, c :: l' => same v c ∧ sames l l'
  | _, _ => False
end

/-- What a value would be as a type of HCL. -/
def Val.ty : Val → Ty
  | .stringer _ => .str
  | .bool _ => .bool
  | .str _ => .str
  | .int _ => .num
  | .uint _ => .num
  | .slice [] => .list .zero
  | .slice (x :: _) => .list x.ty
  | .map _ => .zero
  | .other => .zero

mutual
/-- The values that can be written: booleans, strings, integers, stringers, and lists of such values of one type. -/
def plain : Val → Prop
  | .slice l => plains l ∧ ∀ x ∈ l, ∀ y ∈ l, x.ty = y.ty
  | .map _ => False
  | .other => False
  | _ => True
def plains : List Val → Prop
  | [] => True
  | x :: xs => plain x ∧ plains xs
end

theorem listVal_ok {l : List Cty} {c : Cty} (h : listVal l = .ok c) : c = .list l ∧ ∃ x xs, l = x :: xs ∧ ∀ y ∈ xs, y.ty = x.ty := by
  cases l with
  | nil => simp [listVal] at h
  | cons x xs =>
    simp only [listVal] at h
    split at h
    · next hall =>
      simp only [Except.ok.injEq] at h
      exact ⟨h.symm, x, xs, rfl, by simpa using hall⟩
    · simp at h

mutual
theorem value_plain : ∀ v : Val, plain v → ∃ c, ctyValue v = .ok (c, false) ∧ same v c ∧ c.ty = v.ty
  | .stringer s, _ => ⟨.str s, rfl, rfl, rfl⟩
  | .bool b, _ => ⟨.bool b, rfl, rfl, rfl⟩
  | .str s, _ => ⟨.str s, rfl, rfl, rfl⟩
  | .int i, _ => ⟨.num i, rfl, rfl, rfl⟩
  | .uint n, _ => ⟨.num n, rfl, rfl, rfl⟩
  | .slice [], _ => ⟨.list [], rfl, trivial, rfl⟩
  | .slice (x :: xs), h => by
    obtain ⟨cs, h1, h2, h3⟩ := values_plain (x :: xs) h.1
    have hu := h.2
    cases cs with
    | nil => simp [sames] at h2
    | cons c cs =>
      have hty : ∀ y ∈ cs, y.ty = c.ty := by
        intro y hy
        simp only [List.map_cons, List.cons.injEq] at h3
        have : y.ty ∈ cs.map Cty.ty := List.mem_map_of_mem hy
        rw [h3.2] at this
        obtain ⟨v, hv, e⟩ := List.mem_map.mp this
        rw [← e, h3.1]
        exact hu v (by simp [hv]) x (by simp)
      refine ⟨.list (c :: cs), ?_, h2, ?_⟩
      · have : listVal (c :: cs) = .ok (.list (c :: cs)) := by
          simp only [listVal]; rw [if_pos (by simpa using hty)]
        simp [ctyValue, h1, this]
      · simp only [List.map_cons, List.cons.injEq] at h3
        simp [Cty.ty, Val.ty, h3.1]
  | .map _, h => absurd h (by simp [plain])
  | .other, h => absurd h (by simp [plain])
theorem values_plain : ∀ l : List Val, plains l → ∃ cs, ctyValues l = .ok cs ∧ sames l cs ∧ cs.map Cty.ty = l.map Val.ty
  | [], _ => ⟨[], rfl, trivial, rfl⟩
  | x :: xs, h => by
    obtain ⟨c, h1, h2, h3⟩ := value_plain x h.1
    obtain ⟨cs, h4, h5, h6⟩ := values_plain xs h.2
    exact ⟨c :: cs, by simp [ctyValues, h1, h4], ⟨h2, h5⟩, by simp [h3, h6]⟩
end

theorem ctyValues_length : ∀ (l : List Val) (cs : List Cty), ctyValues l = .ok cs → cs.length ≤ l.length
  | [], cs, h => by simp [ctyValues] at h; subst h; simp
  | x :: xs, cs, h => by
    simp only [ctyValues] at h
    split at h
    · simp at h
    · next c err e =>
      split at h
      · simp at h
      · next cs' e' =>
        have := ctyValues_length xs cs' e'
        simp only [Except.ok.injEq] at h
        subst h
        split <;> simp <;> omega

theorem sames_length : ∀ (l : List Val) (cs : List Cty), sames l cs → cs.length = l.length
  | [], [], _ => rfl
  | [], _ :: _, h => by simp [sames] at h
  | _ :: _, [], h => by simp [sames] at h
  | _ :: l, _ :: cs, h => by simp [sames_length l cs h.2]

mutual
theorem plain_of : ∀ (v : Val) (c : Cty), ctyValue v = .ok (c, false) → same v c → plain v
  | .stringer _, _, _, _ => trivial
  | .bool _, _, _, _ => trivial
  | .str _, _, _, _ => trivial
  | .int _, _, _, _ => trivial
  | .uint _, _, _, _ => trivial
  | .slice [], _, _, _ => by simp [plain, plains]
  | .slice (x :: xs), c, h, hs => by
    simp only [ctyValue] at h
    split at h
    · simp at h
    · next vs e =>
      split at h
      · simp at h
      · next c' e' =>
        simp only [Except.ok.injEq, Prod.mk.injEq, and_true] at h
        subst h
        obtain ⟨rfl, y, ys, rfl, hty⟩ := listVal_ok e'
        have hs' : sames (x :: xs) (y :: ys) := hs
        have hp := plains_of (x :: xs) (y :: ys) e hs'
        refine ⟨hp, ?_⟩
        obtain ⟨cs, h1, _, h3⟩ := values_plain _ hp
        rw [e] at h1
        simp only [Except.ok.injEq] at h1
        subst h1
        have all : ∀ v ∈ x :: xs, v.ty = y.ty := by
          intro v hv
          have : v.ty ∈ (x :: xs).map Val.ty := List.mem_map_of_mem hv
          rw [← h3] at this
          obtain ⟨z, hz, ez⟩ := List.mem_map.mp this
          rw [← ez]
          rcases List.mem_cons.mp hz with rfl | hz
          · rfl
          · exact hty z hz
        intro a ha b hb
        rw [all a ha, all b hb]
  | .map _, _, h, _ => by simp [ctyValue] at h
  | .other, _, h, _ => by simp [ctyValue] at h
theorem plains_of : ∀ (l : List Val) (cs : List Cty), ctyValues l = .ok cs → sames l cs → plains l
  | [], _, _, _ => trivial
  | x :: xs, cs, h, hs => by
    have hl := sames_length _ _ hs
    simp only [ctyValues] at h
    split at h
    · simp at h
    · next c err e =>
      split at h
      · simp at h
      · next cs' e' =>
        have := ctyValues_length xs cs' e'
        simp only [Except.ok.injEq] at h
        cases err with
        | true =>
          simp at h; subst h
          simp at hl; omega
        | false =>
          simp at h; subst h
          exact ⟨plain_of x c e hs.1, plains_of xs cs' e' hs.2⟩
end

/-! ## C80 -/

/-- **C80** Exactly the values of bools, strings, integers, stringers and lists of these of one type become a value of HCL that says the same. -/
theorem C80_values (v : Val) : (∃ c, ctyValue v = .ok (c, false) ∧ same v c) ↔ plain v :=
  ⟨fun ⟨c, h, hs⟩ => plain_of v c h hs, fun h => let ⟨c, h1, h2, _⟩ := value_plain v h; ⟨c, h1, h2⟩⟩

mutual
/-- A map with distinct keys, all values of which can be written. -/
def good : Val → Prop
  | .map m => (m.map Prod.fst).Nodup ∧ goods m
  | v => plain v
def goods : List (Str × Val) → Prop
  | [] => True
  | (_, v) :: m => good v ∧ goods m
end

/-- The value in a map of maps at a path of keys; maps themselves do not count. -/
def valAt : List (Str × Val) → List Str → Option Val
  | _, [] => none
  | m, k :: ks => match m.find? (fun a => a.1 = k) with
    | some (_, .map m') => valAt m' ks
    | some (_, v) => if ks = [] then some v else none
    | none => none

/-- The attribute in a body at a path of block names and the name of the attribute. -/
def attrAt : Body → List Str → Option Cty
  | _, [] => none
  | b, k :: ks => match b.find? (fun a => a.1 = k) with
    | some (_, .block b') => attrAt b' ks
    | some (_, .attr c) => if ks = [] then some c else none
    | none => none

mutual
def fits : Val → Item → Prop
  | .map m, .block b => fitsAll m b
  | .map _, .attr _ => False
  | .stringer s, .attr c => same (.stringer s) c
  | .bool s, .attr c => same (.bool s) c
  | .str s, .attr c => same (.str s) c
  | .int s, .attr c => same (.int s) c
  | .uint s, .attr c => same (.uint s) c
  | .slice s, .attr c => same (.slice s) c
  | _, _ => False
def fitsAll : List (Str × Val) → Body → Prop
  | [], [] => True
  | (k, v) :: m, (k', i) :: b => k = k' ∧ fits v i ∧ fitsAll m b
  | _, _ => False
end

theorem fits_attr {v : Val} {c : Cty} (hv : ∀ m, v ≠ .map m) (h : same v c) : fits v (.attr c) := by
  cases v <;> first | exact h | simp_all [same]

theorem setAttr_new (k : Str) (c : Cty) : ∀ b : Body, k ∉ b.map Prod.fst → setAttr k c b = b ++ [(k, .attr c)]
  | [], _ => rfl
  | (k', .attr c') :: r, h => by
    simp only [List.map_cons, List.mem_cons, not_or] at h
    simp only [setAttr, if_neg (Ne.symm h.1), setAttr_new k c r h.2, List.cons_append]
  | (k', .block b') :: r, h => by
    simp only [List.map_cons, List.mem_cons, not_or] at h
    simp only [setAttr, setAttr_new k c r h.2, List.cons_append]

mutual
theorem fill1_good : ∀ (body : Body) (k : Str) (v : Val), good v → k ∉ body.map Prod.fst →
    ∃ i, fill1 body k v = .ok (body ++ [(k, i)]) ∧ fits v i
  | body, k, .map m, h, _ => by
    obtain ⟨b, h1, h2⟩ := fill_good [] m h.2 h.1 (by simp)
    simp only [List.nil_append] at h1
    exact ⟨.block b, by simp [fill1, h1], h2⟩
  | body, k, .stringer s, h, hk => by exact ⟨.attr (.str s), by simp [fill1, ctyValue, setAttr_new k _ body hk], rfl⟩
  | body, k, .bool s, h, hk => by exact ⟨.attr (.bool s), by simp [fill1, ctyValue, setAttr_new k _ body hk], rfl⟩
  | body, k, .str s, h, hk => by exact ⟨.attr (.str s), by simp [fill1, ctyValue, setAttr_new k _ body hk], rfl⟩
  | body, k, .int s, h, hk => by exact ⟨.attr (.num s), by simp [fill1, ctyValue, setAttr_new k _ body hk], rfl⟩
  | body, k, .uint s, h, hk => by exact ⟨.attr (.num s), by simp [fill1, ctyValue, setAttr_new k _ body hk], rfl⟩
  | body, k, .slice s, h, hk => by
    obtain ⟨c, h1, h2, _⟩ := value_plain (.slice s) h
    exact ⟨.attr c, by simp [fill1, h1, setAttr_new k _ body hk], h2⟩
  | _, _, .other, h, _ => absurd h (by simp [good, plain])
theorem fill_good : ∀ (body : Body) (m : List (Str × Val)), goods m → (m.map Prod.fst).Nodup → (∀ k ∈ m.map Prod.fst, k ∉ body.map Prod.fst) →
    ∃ b, fill body m = .ok (body ++ b) ∧ fitsAll m b
  | body, [], _, _, _ => ⟨[], by simp [fill], trivial⟩
  | body, (k, v) :: m, h, hn, hk => by
    simp only [List.map_cons, List.nodup_cons] at hn
    obtain ⟨i, h1, h2⟩ := fill1_good body k v h.1 (hk k (by simp))
    obtain ⟨b, h3, h4⟩ := fill_good (body ++ [(k, i)]) m h.2 hn.2 (by
      intro k' hk'
      simp only [List.map_append, List.map_cons, List.map_nil, List.mem_append, List.mem_singleton, not_or]
      exact ⟨hk k' (by simp only [List.map_cons, List.mem_cons]; exact .inr hk'), fun e => hn.1 (e ▸ hk')⟩)
    exact ⟨(k, i) :: b, by simp [fill, h1, h3], rfl, h2, h4⟩
end

theorem fitsAll_find (k : Str) : ∀ (m : List (Str × Val)) (b : Body), fitsAll m b →
    (m.find? (fun a => a.1 = k) = none ∧ b.find? (fun a => a.1 = k) = none) ∨
    ∃ v i, m.find? (fun a => a.1 = k) = some (k, v) ∧ b.find? (fun a => a.1 = k) = some (k, i) ∧ fits v i
  | [], [], _ => .inl ⟨rfl, rfl⟩
  | [], _ :: _, h => by simp [fitsAll] at h
  | _ :: _, [], h => by simp [fitsAll] at h
  | (k1, v) :: m, (k2, i) :: b, h => by
    obtain ⟨rfl, h2, h3⟩ := h
    by_cases e : k1 = k
    · subst e; right; exact ⟨v, i, by simp, by simp, h2⟩
    · simp only [List.find?_cons, e, decide_false]
      exact fitsAll_find k m b h3

theorem at_fits (ks : List Str) : ∀ (m : List (Str × Val)) (b : Body), fitsAll m b →
    (valAt m ks = none ∧ attrAt b ks = none) ∨ ∃ v c, valAt m ks = some v ∧ attrAt b ks = some c ∧ same v c := by
  induction ks with
  | nil => exact fun m b _ => .inl ⟨by cases m <;> rfl, by cases b <;> rfl⟩
  | cons k ks ih =>
    intro m b h
    simp only [valAt, attrAt]
    rcases fitsAll_find k m b h with ⟨h1, h2⟩ | ⟨v, i, h1, h2, h3⟩
    · rw [h1, h2]; exact .inl ⟨rfl, rfl⟩
    · rw [h1, h2]
      have leaf : ∀ c, (∀ m, v ≠ .map m) → i = .attr c → same v c →
          ((if ks = [] then some v else none) = none ∧ (if ks = [] then some c else none) = none) ∨
          ∃ v' c', (if ks = [] then some v else none) = some v' ∧ (if ks = [] then some c else none) = some c' ∧ same v' c' := by
        intro c _ _ hs
        by_cases hk : ks = []
        · right; exact ⟨v, c, by rw [if_pos hk], by rw [if_pos hk], hs⟩
        · left; rw [if_neg hk, if_neg hk]; exact ⟨rfl, rfl⟩
      cases v with
      | map m' => cases i with
        | block b' => exact ih m' b' h3
        | attr c => exact absurd h3 (by simp [fits])
      | other => cases i <;> exact absurd h3 (by simp [fits])
      | stringer s => cases i with
        | block b' => exact absurd h3 (by simp [fits])
        | attr c => exact leaf c (by simp) rfl h3
      | bool s => cases i with
        | block b' => exact absurd h3 (by simp [fits])
        | attr c => exact leaf c (by simp) rfl h3
      | str s => cases i with
        | block b' => exact absurd h3 (by simp [fits])
        | attr c => exact leaf c (by simp) rfl h3
      | int s => cases i with
        | block b' => exact absurd h3 (by simp [fits])
        | attr c => exact leaf c (by simp) rfl h3
      | uint s => cases i with
        | block b' => exact absurd h3 (by simp [fits])
        | attr c => exact leaf c (by simp) rfl h3
      | slice s => cases i with
        | block b' => exact absurd h3 (by simp [fits])
        | attr c => exact leaf c (by simp) rfl h3

/-- **C80** A map of maps whose values can all be written is written: along every path of keys there is an attribute exactly where the map has a value,
and it says the same. Full claim: for every map, or an error. What is missing is shown by the theorems below. -/
theorem C80_marshal_partial (m : List (Str × Val)) (h : good (.map m)) : ∃ b, marshal m = .ok (b, false) ∧ ∀ ks,
    (valAt m ks = none ∧ attrAt b ks = none) ∨ ∃ v c, valAt m ks = some v ∧ attrAt b ks = some c ∧ same v c := by
  obtain ⟨b, h1, h2⟩ := fill_good [] m h.2 h.1 (by simp)
  exact ⟨b, by simp [marshal, h1], fun ks => at_fits ks m b h2⟩

/-- **C80** In whatever order `range` goes through the map. -/
theorem C80_order (m m' : List (Str × Val)) (hp : m.Perm m') (h : good (.map m)) : good (.map m') ∧ ∀ ks, valAt m ks = valAt m' ks := by
  have hn : (m'.map Prod.fst).Nodup := (hp.map Prod.fst).nodup_iff.mp h.1
  have key : ∀ l : List (Str × Val), goods l ↔ ∀ a ∈ l, good a.2 := by
    intro l
    induction l with
    | nil => simp [goods]
    | cons a l ih => obtain ⟨k, v⟩ := a; simp [goods, ih]
  refine ⟨⟨hn, (key m').mpr fun a ha => (key m).mp h.2 a (hp.mem_iff.mpr ha)⟩, fun ks => ?_⟩
  cases ks with
  | nil => cases m <;> cases m' <;> rfl
  | cons k ks =>
    have uniq : ∀ (l : List (Str × Val)), (l.map Prod.fst).Nodup → ∀ a, l.find? (fun x => x.1 = k) = some a ↔ a ∈ l ∧ a.1 = k := by
      intro l
      induction l with
      | nil => simp
      | cons x xs ih =>
        intro hx a
        simp only [List.map_cons, List.nodup_cons] at hx
        by_cases e : x.1 = k
        · have : (x :: xs).find? (fun y => y.1 = k) = some x := by simp [e]
          rw [this]
          constructor
          · rintro h; simp only [Option.some.injEq] at h; subst h; exact ⟨by simp, e⟩
          · rintro ⟨h1, h2⟩
            rcases List.mem_cons.mp h1 with rfl | h1
            · rfl
            · exact absurd (List.mem_map_of_mem (f := Prod.fst) h1) (by rw [h2, ← e]; exact hx.1)
        · have : (x :: xs).find? (fun y => y.1 = k) = xs.find? (fun y => y.1 = k) := by simp [e]
          rw [this, ih hx.2 a]
          constructor
          · rintro ⟨h1, h2⟩; exact ⟨by simp [h1], h2⟩
          · rintro ⟨h1, h2⟩
            rcases List.mem_cons.mp h1 with rfl | h1
            · exact absurd h2 e
            · exact ⟨h1, h2⟩
    have : m.find? (fun a => a.1 = k) = m'.find? (fun a => a.1 = k) := by
      apply Option.ext
      intro a
      rw [uniq m h.1 a, uniq m' hn a, hp.mem_iff]
    simp only [valAt, this]

/-- **C80** No error is ever reported. -/
theorem C80_error_fails (m : List (Str × Val)) (b : Body) (err : Bool) (h : marshal m = .ok (b, err)) : err = false := by
  unfold marshal at h
  split at h
  · simp at h
  · simp only [Except.ok.injEq, Prod.mk.injEq] at h; exact h.2.symm

/-- **C80** A float (or nil, or a struct) becomes `null`, wherever it stands, without an error. -/
theorem C80_null_fails (k : Str) : marshal [(k, .other)] = .ok ([(k, .attr .nil)], false) := rfl

/-- **C80** An element that cannot be written is left out of its list, without an error. -/
theorem C80_drop_fails (k : Str) (i j : Int) : marshal [(k, .slice [.int i, .other, .int j])] = .ok ([(k, .attr (.list [.num i, .num j]))], false) := by
  simp [marshal, fill, fill1, ctyValue, ctyValues, listVal, setAttr, Cty.ty]

/-- **C80** Lists of different types, lists of nothing that can be written (a list of maps, for one), and an empty list beside another one are panics. -/
theorem C80_panic_fails (k s : Str) (i : Int) (m : List (Str × Val)) : marshal [(k, .slice [.int i, .str s])] = .error () ∧
    marshal [(k, .slice [.map m])] = .error () ∧ marshal [(k, .slice [.slice [], .slice [.int i]])] = .error () := by
  refine ⟨?_, ?_, ?_⟩ <;> simp [marshal, fill, fill1, ctyValue, ctyValues, listVal, Cty.ty]

/-- A map as the store may hold it. -/
def exMap : List (Str × Val) :=
  [(['a'], .map [(['b'], .slice [.int 1, .uint 2]), (['c'], .str ['x'])]), (['d'], .bool true), (['e'], .slice [.slice [.stringer ['1', 's']], .slice [.str []]])]

example : good (.map exMap) := by
  simp [exMap, good, goods, plain, plains, Val.ty]

example : (match marshal exMap with | .ok (b, _) => (attrAt b [['a'], ['c']]).isSome && (attrAt b [['d']]).isSome && (attrAt b [['a']]).isNone | _ => false) =
    true := by decide +kernel

end HclMarshal
end Verif

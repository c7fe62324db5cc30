import Verif.Lemmas.Join
import Verif.Model.Ops
import Verif.Model.ByteKeys
import Verif.Props.Write
/-
C39 joining paths, C11 prefix views.
-/
namespace Verif

/-! ## C39 -/

/-- **C39** `Join` is the non-empty parts separated by single delimiters. -/
theorem C39_join (d : Char) (l : List Str) : View.join d l = List.intercalate [d] (l.filter (fun p => p ≠ [])) :=
  join_eq d l

/-- **C39** So is `join1`, counting its first argument as a part. -/
theorem C39_join1 (d : Char) (pre : Str) (l : List Str) :
    View.join1 d pre l = List.intercalate [d] ((pre :: l).filter (fun p => p ≠ [])) := join1_eq d pre l

/-- **C39** `Join` is associative. -/
theorem C39_assoc (d : Char) (l m r : List Str) :
    View.join d (l ++ View.join d m :: r) = View.join d (l ++ m ++ r) := by
  simp only [join_eq]; exact joinSpec_assoc d l m r

/-- **C39** Splitting gives back the non-empty parts. -/
theorem C39_split (d : Char) (l : List Str) (h : ∀ p ∈ l, d ∉ p) (hne : ∃ p ∈ l, p ≠ []) :
    splitOn d (View.join d l) = l.filter (fun p => p ≠ []) := by
  rw [join_eq, joinSpec_eq]
  refine splitOn_joinWith ?_ (fun w hw => h w (List.mem_filter.mp hw).1)
  obtain ⟨p, hp, h1⟩ := hne
  exact List.ne_nil_of_mem (List.mem_filter.mpr ⟨hp, by simpa using h1⟩)

example : View.join '.' ["".toList, "a".toList, "".toList, "b".toList] = "a.b".toList := by decide +kernel

theorem utf8_eq_nil {s : Str} : utf8 s = [] ↔ s = [] :=
  ⟨fun h => utf8_inj (h.trans utf8_nil.symm), fun h => by rw [h]; exact utf8_nil⟩

theorem utf8_single_ascii {d : Char} (h : d.toNat < 128) : utf8 [d] = [UInt8.ofNat d.toNat] := by
  have : d.toNat ≤ 127 := by omega
  simp only [utf8, List.flatMap_cons, List.flatMap_nil, List.append_nil]
  simp only [String.utf8EncodeChar]
  have h2 : d.val.toNat ≤ 127 := this
  simp only [h2, if_true]
  rfl

theorem joinRestBytes_eq {d : Char} (h : d.toNat < 128) (l : List Str) :
    joinRestBytes d (l.map utf8) = utf8 (View.joinRest d l) := by
  induction l with
  | nil => exact utf8_nil.symm
  | cons a as ih =>
    simp only [List.map_cons, joinRestBytes, View.joinRest, ne_eq, utf8_eq_nil]
    split
    · rw [show d :: a ++ View.joinRest d as = [d] ++ (a ++ View.joinRest d as) by simp]
      rw [utf8_append, utf8_append, utf8_single_ascii h, ih]; simp
    · exact ih

/-- **C39** For delimiters below 128 the byte-level code computes the rune-level join. -/
theorem C39_bytes {d : Char} (h : d.toNat < 128) (l : List Str) :
    joinBytes d (l.map utf8) = utf8 (View.join d l) := by
  induction l with
  | nil => exact utf8_nil.symm
  | cons a as ih =>
    cases as with
    | nil => rfl
    | cons b bs =>
      simp only [List.map_cons, joinBytes, View.join, utf8_eq_nil] at ih ⊢
      split
      · exact ih
      · rw [utf8_append, ← joinRestBytes_eq h]; rfl

/-- For other delimiters, which the API accepts (`rune`), it does not: with '→' the separator written is
the single byte 0x92. -/
theorem C39_rune_delim_fails : ∃ d : Char, joinBytes d (["a".toList, "b".toList].map utf8) ≠ utf8 (View.join d ["a".toList, "b".toList]) ∧
    joinBytes d (["a".toList, "b".toList].map utf8) = [97, 0x92, 98] :=
  ⟨'→', by decide +kernel, by decide +kernel⟩

/-! ## C11 -/

/-- **C11** The path addressed through `WithPrefix(ps...)` is the join of the old prefix, the new parts and
the key. -/
theorem C11_withPrefix (v : View) (ps : List Str) (k : Str) :
    (v.withPrefix ps).full k = joinSpec v.delim (v.pre :: ps ++ [k]) := by
  rw [full_eq]
  simp only [View.withPrefix, join1_eq]
  have := joinSpec_assoc v.delim [] (v.pre :: ps) [k]
  simpa using this

/-- **C11** Nesting composes. -/
theorem C11_nested (v : View) (ps qs : List Str) (k : Str) :
    ((v.withPrefix ps).withPrefix qs).full k = (v.withPrefix (ps ++ qs)).full k := by
  rw [C11_withPrefix, C11_withPrefix]
  simp only [View.withPrefix, join1_eq]
  have := joinSpec_assoc v.delim [] (v.pre :: ps) (qs ++ [k])
  simpa using this

/-- **C11** Reading below a view is reading at the joined key. -/
theorem C11_shift (v : View) (ps : List Str) (k : Str) :
    (v.withPrefix ps).full k = v.full (View.join v.delim (ps ++ [k])) := by
  rw [C11_withPrefix, full_eq, join_eq]
  have := joinSpec_assoc v.delim [v.pre] (ps ++ [k]) []
  simpa using this.symm

/-- **C11** `WithPrefixReplaced` and `SetPrefix` ignore the old prefix. -/
theorem C11_replaced (v : View) (ps : List Str) (k : Str) :
    (v.withPrefixReplaced ps).full k = joinSpec v.delim (ps ++ [k]) := by
  rw [full_eq]
  simp only [View.withPrefixReplaced, join_eq]
  have := joinSpec_assoc v.delim [] ps [k]
  simpa using this

/-- The view without prefix. -/
def View.bare (v : View) : View := { v with pre := [] }

theorem View.bare_full (v : View) (p : Str) : v.bare.full p = p := rfl

variable {α : Type} [Inhabited α]

/-- **C11** Every read through a view is the read of the unprefixed trie at the joined path. -/
theorem C11_reads (v : View) (t : Tree α) (k : Str) :
    v.mustGet t k = v.bare.mustGet t (v.full k) ∧ v.get t k = v.bare.get t (v.full k) ∧
    v.has t k = v.bare.has t (v.full k) ∧ v.hasPart t k = v.bare.hasPart t (v.full k) ∧
    v.query t k = v.bare.query t (v.full k) ∧ v.locate t k = v.bare.locate t (v.full k) ∧
    v.getDesc t k = v.bare.getDesc t (v.full k) ∧ v.getComment t k = v.bare.getComment t (v.full k) ∧
    v.getTag t k = v.bare.getTag t (v.full k) := by
  refine ⟨rfl, rfl, rfl, rfl, rfl, rfl, rfl, rfl, rfl⟩

/-- The operation on the unprefixed trie. -/
def Op.bare : Op α → Op α
  | .set v p x => .set v.bare (v.full p) x
  | .setEx v p x => .setEx v.bare (v.full p) x
  | .setNode v p x tag ds => .setNode v.bare (v.full p) x tag ds
  | .setEmpty v p => .setEmpty v.bare (v.full p)
  | .update v p cb => .update v.bare (v.full p) cb
  | .setComment v p d c => .setComment v.bare (v.full p) d c
  | .setTag v p x => .setTag v.bare (v.full p) x
  | .remove v p => .remove v.bare (v.full p)
  | .node i o => .node i o

/-- **C11** Every write through a view is the write of the unprefixed trie at the joined path. -/
theorem C11_writes (o : Op α) (t : Tree α) : o.run t = o.bare.run t := by cases o <;> rfl

/-- **C11** A value written through one view is read through every view at which the joined
paths agree. -/
theorem C11_views_share {v r : View} {t : Tree α} (h : Reach (NoRoute r.delim) t) {ps qs : List Str}
    {k k' : Str} (hk : NoRoute r.delim ((v.withPrefix ps).full k)) (hsp : ' ' ∉ (v.withPrefix ps).full k)
    (e : joinSpec v.delim (v.pre :: ps ++ [k]) = joinSpec r.delim (r.pre :: qs ++ [k'])) (x : α) :
    (r.withPrefix qs).mustGet ((v.withPrefix ps).set t k x).1 k' = .ok x := by
  have e0 := keyOf_nospace hsp
  refine C01_read_own_write (v := v.withPrefix ps) (r := r.withPrefix qs) h (by rw [e0]; exact hk) ?_ x
  rw [e0, C11_withPrefix, C11_withPrefix]
  exact e.symm

example : (View.new '.').withPrefix ["app".toList] |>.withPrefix ["".toList, "db".toList] |>.full "port".toList |> (· = "app.db.port".toList) := by
  decide +kernel

end Verif

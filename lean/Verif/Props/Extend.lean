import Verif.Mod.Extend
import Verif.Props.ModPanic

/-! # Extensions that fail (C99)

The definitions in this file belong to statements; they model no code.
-/

namespace Unixfs.Props
open Unixfs.Spec Unixfs.Mod Unixfs.Import

variable {env : Env} {root base r : Node} {c : Bytes} {p : Params} {path : Option Bytes} {chunks : List Bytes} {fin : Option Err}
  {budget : Option Nat} {db db' : DB} {fuel h : Nat} {g : Node → Bool} {e : Err}

/-- C99: a failed `Append` leaves the node that it was given as it was, whatever this node is, unless a chunk was
too large, the source failed or the DAG service refused a block: blocks that cannot be fetched do no harm. -/
theorem C99_append_partial (hf : Fresh p path chunks fin budget db) (h1 : 1 ≤ p.maxlinks) (hfuel : chunks.length < fuel)
    (hr : Trickle.appendF fuel h base { db with canGet := g } = (.error e, r, db')) :
    r = base ∨ (e = .sizeLimitExceeded ∧ ¬AllFit chunks) ∨ fin = some e ∨ (e = .addFailed ∧ budget ≠ none) := by
  obtain ⟨hi, hp⟩ := Fresh.facts_get hf g
  obtain ⟨_, _, hm, _, _, hse, _, _, hb, _⟩ := Fresh.facts hf
  rcases Trickle.appendF_same hr (show 0 < db.maxlinks by omega) hi with h | (⟨he, x, hx, hl⟩ | hx | ⟨he, hx⟩) | ⟨_, h⟩
  · exact .inl h
  · refine .inr (.inl ⟨he, fun hall => ?_⟩)
    rw [hp] at hx
    have := hall x hx; unfold blockSizeLimit at hl; omega
  · exact .inr (.inr (.inl (by rw [← hse]; exact hx)))
  · exact .inr (.inr (.inr ⟨he, by rw [← hb]; exact hx⟩))
  · rw [hp] at h; omega

/-- The last child of a trickle DAG with two links per node cannot be fetched: `Append` fails, and the DAG is as it
was. -/
example : ∃ base db', Made { maxlinks := 2 } base [1, 2, 3, 4, 5, 6] ∧
    Trickle.appendF 9 9 base { exAppDB with canGet := fun _ => false } = (.error .notFound, base, db') := by
  obtain ⟨base, n, _, x⟩ := exApp
  obtain ⟨e, he⟩ := x.missing
  rcases hF : Trickle.appendF 9 9 base { exAppDB with canGet := fun _ => false } with ⟨r, k, db'⟩
  have hq := Trickle.appendF_eq 9 9 base { exAppDB with canGet := fun _ => false }
  rw [hF, he] at hq
  cases r with
  | ok u => cases hq
  | error e' =>
    rcases C57_append_errors exAppFresh (by decide) x.sizes x.appendable (by decide) (by rw [x.height]; decide) he with ⟨_, h⟩ | h | ⟨_, h⟩ | ⟨rfl, _⟩
    · exact absurd (show AllFit _ by unfold AllFit; decide) h
    · cases h
    · exact absurd rfl h
    · cases hq
      rcases C99_append_partial exAppFresh (by decide) (by decide) hF with rfl | ⟨h, _⟩ | h | ⟨h, _⟩
      · exact ⟨k, db', x.made, hF⟩
      · cases h
      · cases h
      · cases h

/-- C99: `Truncate`, and `Seek` behind the end, do all or nothing, in any number and in any order, whichever
blocks cannot be fetched and whenever the DAG service refuses the new root, as long as it refuses no other block:
what `GetNode` then returns is the file that results. -/
theorem C99_resize_partial (hb : AppendsStored env) (hs : SizesTrue root) (hc : content root = some c) (hl : c.length < 2 ^ 63) (hg : Ext root)
    (ops : List MOp) (ho : ∀ o ∈ ops, Resizes o) :
    ∃ n d, results env root (ops ++ [.getNode]) = results env root ops ++ [{ node := some n }] ∧ (results env root ops).length = ops.length ∧
      content n = some d ∧ SizesTrue n ∧ AllOrNothing c (ops.zip (results env root ops)) d := by
  obtain ⟨dm, e, h⟩ := Still.new hs hc hg
  obtain ⟨d, h2, _, h4⟩ := Still.run hb ops h hl ho
  have hlen : ∀ (ops : List MOp) (dm : DM), (dm.run env ops).1.length = ops.length := by
    intro ops
    induction ops with
    | nil => intro dm; rfl
    | cons o os ih => intro dm; simp [DM.run, ih]
  simp only [results, e, run_append]
  refine ⟨(dm.run env ops).2.cur, d, ?_, hlen ops dm, h2.cont, h2.sizes, h4⟩
  congr 1
  simp only [DM.run, DM.step]
  unfold DM.getNode DM.sync
  rw [h2.buf]

/-- Doing it twice is doing it once. -/
theorem made_made {op : MOp} (c : Bytes) : made (made c op) op = made c op := by
  cases op with
  | truncate s =>
    simp only [made]
    generalize s.toInt.toNat = n
    have hlen : (resize c n).length = n := by
      simp only [resize, zeros, List.length_append, List.length_take, List.length_replicate]; omega
    rw [made_trunc_ge (Nat.le_of_eq hlen), hlen, Nat.sub_self]
    simp [zeros]
  | seek off w =>
    simp only [made]
    generalize off.toInt.toNat = n
    have : n - (c ++ zeros (n - c.length)).length = 0 := by
      simp only [zeros, List.length_append, List.length_replicate]; omega
    rw [this]
    simp [zeros]
  | _ => rfl

theorem repeated {op : MOp} {r : MRes} (hr : r.err = none) : ∀ {rs : List MRes} {c d : Bytes},
    AllOrNothing c ((List.replicate (rs.length + 1) op).zip (rs ++ [r])) d → d = made c op
  | [], c, d, h => by
    rcases h with _ | h | ⟨he, _⟩
    · cases h; rfl
    · exact absurd hr he
  | s :: rs, c, d, h => by
    rw [List.length_cons, List.replicate_succ, List.cons_append, List.zip_cons_cons] at h
    rcases h with _ | h | ⟨_, h⟩
    · rw [repeated hr h, made_made]
    · exact repeated hr h

/-- C99: such a call can be repeated until it succeeds; the file is then as if the first attempt had succeeded. -/
theorem C99_repeat_partial (hb : AppendsStored env) (hs : SizesTrue root) (hc : content root = some c) (hl : c.length < 2 ^ 63) (hg : Ext root)
    {op : MOp} (ho : Resizes op) {rs : List MRes} {r : MRes} (hr : results env root (List.replicate (rs.length + 1) op) = rs ++ [r]) (he : r.err = none) :
    ∃ n, results env root (List.replicate (rs.length + 1) op ++ [.getNode]) = rs ++ [r, { node := some n }] ∧
      content n = some (made c op) ∧ SizesTrue n := by
  obtain ⟨n, d, h1, _, h2, h3, h4⟩ := C99_resize_partial hb hs hc hl hg (List.replicate (rs.length + 1) op)
    (fun o h => by rw [(List.mem_replicate.mp h).2]; exact ho)
  rw [hr] at h1 h4
  refine ⟨n, by simpa using h1, ?_, h3⟩
  rw [h2, repeated he h4]

/-- The first request and the root of the second attempt fail. -/
def wShaky : Env := { wEnv with get := fun t _ => t != 0, put := fun t => t != 4 }

/-- `Truncate` fails because of a block that cannot be fetched (nothing done), then because the new root is refused
(done), then `Seek` extends the file. -/
example : AppendsStored wShaky ∧ SizesTrue wTen ∧ content wTen = some [48, 49, 50, 51, 52, 53, 54, 55, 56, 57] ∧ Ext wTen ∧
    (∀ o ∈ [MOp.truncate 7, .truncate 7, .seek 9 0], Resizes o) ∧
    (results wShaky wTen [.truncate 7, .truncate 7, .seek 9 0, .getNode]).map seen =
      [(0, [], none, some .notFound), (0, [], none, some .addFailed), (9, [], none, none),
       (0, [], some [48, 49, 50, 51, 52, 53, 54, 0, 0], none)] := by
  refine ⟨fun _ => rfl, wTen_sizes, wTen_content, wTen_ext, ?_, ?_⟩
  · intro o ho
    simp only [List.mem_cons, List.not_mem_nil, or_false] at ho
    rcases ho with rfl | rfl | rfl <;> simp only [Resizes] <;> decide
  · decide +kernel
/-- Repeated: the third attempt succeeds. -/
example : (results wShaky wTen [.truncate 7, .truncate 7, .truncate 7, .getNode]).map seen =
      [(0, [], none, some .notFound), (0, [], none, some .addFailed), (0, [], none, none),
       (0, [], some [48, 49, 50, 51, 52, 53, 54], none)] := by decide +kernel

/-- C99 is violated when the DAG service refuses one block of the extension: the failed `Truncate` leaves the old
size and the new bytes, and after a failed `Seek` that is repeated with success a `Write` ends up two bytes behind
the position that `Seek` reported. -/
theorem C99_violated : (results wDebris wTen [.truncate 12, .size, .getNode]).map seen =
      [(0, [], none, some .addFailed), (10, [], none, none), (0, [], some [48, 49, 50, 51, 52, 53, 54, 55, 56, 57, 0, 0], none)] ∧
    (results wDebris wTen [.seek 12 0, .seek 12 0, .write [88], .getNode]).map seen =
      [(0, [], none, some .addFailed), (12, [], none, none), (1, [], none, none),
       (0, [], some [48, 49, 50, 51, 52, 53, 54, 55, 56, 57, 0, 0, 0, 0, 88], none)] :=
  ⟨by decide +kernel, by decide +kernel⟩

/-- An `Append` of the chunks `[1]`, `[2]` to the file `wTen`, with 174 links per node, whose source then fails. -/
def wShort : Except Err Unit × Node × DB :=
  Trickle.appendF 3 3 wTen { maxlinks := defaultLinksPerBlock, src := [[1], [2]], srcEnd := some .notFound }

/-- C99 is violated by `Append` when the source fails: the node it was given has got the bytes read before. -/
theorem C99_violated_append : (match wShort.1 with | .error e => some e | .ok _ => none) = some .notFound ∧
    content wTen = some [48, 49, 50, 51, 52, 53, 54, 55, 56, 57] ∧
    content wShort.2.1 = some [48, 49, 50, 51, 52, 53, 54, 55, 56, 57, 1, 2] ∧ fileSize wShort.2.1 = .ok 10 :=
  ⟨by decide +kernel, by decide +kernel, by decide +kernel, by decide +kernel⟩

end Unixfs.Props

import Verif.Props.AddAny

/-!
# C127: what was removed from any directory is not found there

The definitions in this file belong to proofs; they model no code.
-/

namespace Unixfs.Props
open Unixfs.Hamt hiding exec execAll results NoEmptyName lastWrite Cfg
open Unixfs.Dir Unixfs.File Unixfs.Spec

variable {net : Net} {H : Hash}

/-- What is taken out of a shard is what a lookup at that moment finds. -/
theorem taken_found : ∀ (f : Nat) (s s' : Shard) (n : Nat) (key : Bytes) (t t1 : Nat) (o : Option Link), Shard.swapValue H net f s n key none t = (.ok o, s', t1) →
    (Shard.getValue H net f s n key t).1 = .ok o ∧ o.isSome = true
  | 0, s, s', n, key, t, t1, o, h => by cases h
  | f + 1, s, s', n, key, t, t1, o, h => by
    unfold Shard.swapValue at h
    unfold Shard.getValue
    cases hx : nextBits (H key) n s.lg with
    | error e => rw [hx] at h; cases h
    | ok y =>
      obtain ⟨idx, n'⟩ := y
      rw [hx] at h
      dsimp only at h ⊢
      split at h
      · cases h
      · next hb =>
        rw [if_neg hb]
        rcases hg : s.get net (s.sliceIndex idx) t with ⟨_ | ⟨c, s1⟩, ta⟩
        · rw [hg] at h; cases h
        rw [hg] at h
        dsimp only at h ⊢
        split at h
        · next hv =>
          rw [if_pos hv]
          split at h
          · next hk =>
            rw [if_pos hk]
            split at h
            · cases h
            · have ho : c.val = o := by injection h with h; injection h
              rw [← ho]
              unfold Shard.isValueNode at hv
              simp only [Bool.and_eq_true] at hv
              exact ⟨rfl, hv.2⟩
          · cases h
        · next hv =>
          rw [if_neg hv]
          rcases h1 : Shard.swapValue H net f c n' key none ta with ⟨_ | old, c', t2⟩
          · rw [h1] at h; cases h
          rw [h1] at h
          dsimp only at h
          have ih := taken_found f _ _ _ _ _ _ _ h1
          have ho : old = o := by
            rcases hc : (s1.setChild c' (s.sliceIndex idx)).collapse idx (s.sliceIndex idx) c' old with ⟨r, s2⟩
            rw [hc] at h
            have hr : r = .ok o := by injection h
            subst hr
            unfold Shard.collapse at hc
            split at hc
            · split at hc
              · cases hc
              · injection hc with hc; injection hc
            · injection hc with hc; injection hc
            · split at hc
              · cases hc
              · injection hc with hc; injection hc
              · injection hc with hc; injection hc
            · injection hc with hc; injection hc
          rw [← ho]
          exact ih

/-- `RemoveChild` of a directory that is not sharded. -/
theorem basic_removed {b b' : Basic} {name : Bytes} (h : b.removeChild name = (.ok (), b')) : (∃ l, b.getNodeLink name = some l) ∧ b'.getNodeLink name = none := by
  unfold Basic.removeChild at h
  cases hl : b.getNodeLink name with
  | none => rw [hl] at h; cases h
  | some l =>
    rw [hl] at h
    dsimp only at h
    injection h with _ h
    refine ⟨⟨l, rfl⟩, ?_⟩
    rw [← h]
    unfold Basic.getNodeLink
    rw [List.find?_eq_none]
    intro m hm
    simpa using (List.mem_filter.mp hm).2

/-- C127: `RemoveChild` without an error takes away what could be found: at that moment `Find` of the name would have given a node, or told that the block of that node cannot be fetched; it would
not have said that the name does not exist. -/
theorem C127_removed_was_there {env : Env} {c c1 : Dir.Cfg} {name : Bytes} (ht : c.thr = 0) (h : Dir.removeChild env c name = (.ok (), c1)) :
    (∃ nd, (Dir.find env c name).1 = .ok nd) ∨ (Dir.find env c name).1 = .error .notFound := by
  unfold Dir.removeChild at h
  unfold Dir.find
  cases hd : c.dir with
  | basic b =>
    rw [hd] at h
    dsimp only at h ⊢
    rcases hx : b.removeChild name with ⟨r, b'⟩
    rw [hx] at h
    injection h with hr _
    subst hr
    obtain ⟨⟨l, hl⟩, _⟩ := basic_removed hx
    unfold Basic.find
    rw [hl]
    dsimp only
    split
    · exact .inl ⟨_, rfl⟩
    · exact .inr rfl
  | hamt y =>
    rw [hd] at h
    dsimp only at h ⊢
    rw [ht, show y.needsToSwitchToBasicDir env 0 name none c.t c.k = (.ok false, y, c.t, c.k) from rfl] at h
    dsimp only at h
    unfold HamtDir.removeChild Shard.take at h
    rcases hx : Shard.swapValue env.H env.net (Shard.fuel env.H name) y.shard 0 name none c.t with ⟨_ | o, s', t'⟩
    · rw [hx] at h; cases h
    obtain ⟨key, hs⟩ := taken_found _ _ _ _ _ _ _ _ hx
    unfold HamtDir.find Shard.find
    rcases hg : Shard.getValue env.H env.net (Shard.fuel env.H name) y.shard 0 name c.t with ⟨r, s2, t2⟩
    rw [hg] at key
    dsimp only at key
    subst key
    cases o with
    | none => cases hs
    | some l =>
      dsimp only
      split
      · exact .inl ⟨_, rfl⟩
      · exact .inr rfl

/-- What a lookup does not find cannot be taken out. -/
theorem missing_kept : ∀ (f : Nat) (s : Shard) (n : Nat) (key : Bytes) (t : Nat) (e : Err), (Shard.getValue H net f s n key t).1 = .error e → (Shard.swapValue H net f s n key none t).1 = .error e
  | 0, s, n, key, t, e, h => h
  | f + 1, s, n, key, t, e, h => by
    unfold Shard.getValue at h
    unfold Shard.swapValue
    cases hx : nextBits (H key) n s.lg with
    | error e => rw [hx] at h; exact h
    | ok y =>
      obtain ⟨idx, n'⟩ := y
      rw [hx] at h
      dsimp only at h ⊢
      split at h
      · next hb => rw [if_pos hb]; exact h
      · next hb =>
        rw [if_neg hb]
        rcases hg : s.get net (s.sliceIndex idx) t with ⟨_ | ⟨c, s1⟩, ta⟩
        · rw [hg] at h; exact h
        rw [hg] at h
        dsimp only at h ⊢
        split at h
        · next hv =>
          rw [if_pos hv]
          split at h
          · cases h
          · next hk => rw [if_neg hk]; exact h
        · next hv =>
          rw [if_neg hv]
          have ih := missing_kept f c n' key ta e h
          rcases h1 : Shard.swapValue H net f c n' key none ta with ⟨_ | old, c', t2⟩
          · rw [h1] at ih; exact ih
          · rw [h1] at ih; cases ih

/-- C127: a name that `Find` says does not exist, `RemoveChild` says so too. -/
theorem C127_missing_is_told {env : Env} {c : Dir.Cfg} {name : Bytes} (ht : c.thr = 0) (h : (Dir.find env c name).1 = .error .notExist) : (Dir.removeChild env c name).1 = .error .notExist := by
  unfold Dir.removeChild
  unfold Dir.find at h
  cases hd : c.dir with
  | basic b =>
    rw [hd] at h
    dsimp only at h ⊢
    unfold Basic.find at h
    unfold Basic.removeChild
    cases hl : b.getNodeLink name with
    | none => rfl
    | some l =>
      rw [hl] at h
      dsimp only at h
      split at h <;> cases h
  | hamt y =>
    rw [hd] at h
    dsimp only at h ⊢
    rw [ht, show y.needsToSwitchToBasicDir env 0 name none c.t c.k = (.ok false, y, c.t, c.k) from rfl]
    dsimp only
    unfold HamtDir.removeChild Shard.take
    unfold HamtDir.find Shard.find at h
    have key := missing_kept (H := env.H) (net := env.net) (Shard.fuel env.H name) y.shard 0 name c.t .notExist
    rcases hg : Shard.getValue env.H env.net (Shard.fuel env.H name) y.shard 0 name c.t with ⟨r, s2, t2⟩
    rw [hg] at h key
    rcases hx : Shard.swapValue env.H env.net (Shard.fuel env.H name) y.shard 0 name none c.t with ⟨r', s', t'⟩
    rw [hx] at key
    match r, h, key with
    | .error e, h, key =>
      have he : e = .notExist := by injection h
      subst he
      have := key rfl
      dsimp only at this
      subst this
      rfl
    | .ok none, h, _ => cases h
    | .ok (some l), h, _ =>
      dsimp only at h
      split at h <;> cases h

/-- C127 for the directories that are not sharded, whatever links they have: after `RemoveChild` without an error the name does not exist, whatever is looked up before. What is missing: sharded
directories. There the claim holds for those this library made (C47), and is false of malformed ones (`C127_found_again`). -/
theorem C127_removed_is_gone_partial {env env' : Env} {c c1 c2 : Dir.Cfg} {b : Basic} {ops : List DOp} {name : Bytes} (hb : c.dir = .basic b) (ho : ∀ op ∈ ops, Looks op)
    (h : Dir.removeChild env c name = (.ok (), c1)) (h2 : c2.dir = c1.dir) : (Dir.find env' (execAll env' ops c2) name).1 = .error .notExist := by
  unfold Dir.removeChild at h
  rw [hb] at h
  dsimp only at h
  rcases hx : b.removeChild name with ⟨r, b'⟩
  rw [hx] at h
  injection h with hr h
  subst hr
  have hs := asked_same (env := env') ops c2 (.refl _) ho
  rw [h2, ← h] at hs
  generalize execAll env' ops c2 = a at hs
  unfold Dir.find
  match ha : a.dir, hs with
  | .basic b1, hs =>
    cases hs
    dsimp only
    unfold Basic.find
    rw [(basic_removed hx).2]

/-- C127 for the directories that are not sharded, whatever links they have: after `RemoveChild` without an error every other name that was found gives the same node, or its block cannot be fetched,
and every name that did not exist still does not. What is missing: sharded directories, as above (`C127_other_renamed`). -/
theorem C127_others_stay_partial {env env' : Env} {c c1 c2 : Dir.Cfg} {b : Basic} {ops : List DOp} {name k : Bytes} (hb : c.dir = .basic b) (hk : k ≠ name) (ho : ∀ op ∈ ops, Looks op)
    (h : Dir.removeChild env c name = (.ok (), c1)) (h2 : c2.dir = c1.dir) :
    (∀ x, (Dir.find env c k).1 = .ok x → (Dir.find env' (execAll env' ops c2) k).1 = .ok x ∨ (Dir.find env' (execAll env' ops c2) k).1 = .error .notFound) ∧
    ((Dir.find env c k).1 = .error .notExist → (Dir.find env' (execAll env' ops c2) k).1 = .error .notExist) := by
  unfold Dir.removeChild at h
  rw [hb] at h
  dsimp only at h
  rcases hx : b.removeChild name with ⟨r, b'⟩
  rw [hx] at h
  injection h with hr h
  subst hr
  have hg : b'.getNodeLink k = b.getNodeLink k := by
    unfold Basic.removeChild at hx
    cases hl : b.getNodeLink name with
    | none => rw [hl] at hx; cases hx
    | some l =>
      rw [hl] at hx
      dsimp only at hx
      injection hx with _ hx
      rw [← hx]
      simp only [Basic.getNodeLink, rm_links, List.find?_filter]
      congr 1
      funext a
      by_cases h : a.name = k
      · simp [h, hk]
      · simp [h]
  have hs := asked_same (env := env') ops c2 (.refl _) ho
  rw [h2, ← h] at hs
  generalize execAll env' ops c2 = a at hs
  unfold Dir.find
  rw [hb]
  match ha : a.dir, hs with
  | .basic b1, hs =>
    cases hs
    dsimp only
    unfold Basic.find
    rw [hg]
    cases b.getNodeLink k with
    | none => exact ⟨fun x hx => (by cases hx), fun _ => rfl⟩
    | some l =>
      dsimp only
      refine ⟨fun x hx => ?_, fun hx => by split at hx <;> cases hx⟩
      split at hx
      · injection hx with hx
        rw [hx]
        split
        · exact .inl rfl
        · exact .inr rfl
      · cases hx

section Examples

/-- A directory of two shards; the lower one holds the name `a` twice, at its place and at another one. -/
def exTwice : Node := exBits 0x08 [.mk [0x33] 1 (exBits 0x03 [.mk [0x30, 0x61] 1 (exNd 1), .mk [0x31, 0x61] 1 (exNd 2)])]

theorem exTwice_runs : (match newDirectoryFromNode exTwice with
    | .ok d => (match Dir.removeChild (calmEnv H0) (start d 0) [0x61] with
      | (.ok (), c1) => decide (((Dir.find (calmEnv H0) (start d 0) [0x61]).1.toOption, (Dir.find (calmEnv H0) c1 [0x61]).1.toOption) = (some (exNd 1), some (exNd 2)))
      | _ => false)
    | _ => false) = true := by decide +kernel

/-- C127: in a malformed sharded directory a name is found again after `RemoveChild` without an error: the lower shard has one link left and is replaced by it, and that link has the same name. -/
theorem C127_found_again : ∃ d c1, newDirectoryFromNode exTwice = .ok d ∧ Dir.removeChild (calmEnv H0) (start d 0) [0x61] = (.ok (), c1) ∧ (Dir.find (calmEnv H0) c1 [0x61]).1 = .ok (exNd 2) := by
  have h := exTwice_runs
  split at h
  · next d hd =>
    split at h
    · next c1 ha =>
      have h := of_decide_eq_true h
      simp only [Prod.mk.injEq] at h
      refine ⟨d, c1, hd, ha, ?_⟩
      have h2 := h.2
      generalize (Dir.find (calmEnv H0) c1 [0x61]).1 = r at h2
      cases r with
      | error e => cases h2
      | ok x => cases h2; rfl
    · cases h
  · cases h

/-- A shard of width 256 below one of width 8. -/
def exMixed : Node := exBits 0x08 [.mk [0x33] 1 (.proto (mustMarshal { typ := some THAMTShard, data := some [0x01, 0x01, 0x00], hashType := some 0x22, fanout := some 256 })
  [.mk [0x30, 0x38, 0x61] 1 (exNd 1), .mk [0x31, 0x30, 0x62] 1 (exNd 2)] .v0)]

theorem exMixed_runs : (match newDirectoryFromNode exMixed with
    | .ok d => (match Dir.removeChild (calmEnv H0) (start d 0) [0x62] with
      | (.ok (), c1) => decide (((Dir.find (calmEnv H0) (start d 0) [0x61]).1.toOption, (match (Dir.find (calmEnv H0) c1 [0x61]).1 with | .error .notExist => true | _ => false),
          (linksAndError (calmEnv H0) c1).1.map Link.name) = (some (exNd 1), true, [[0x38, 0x61]]))
      | _ => false)
    | _ => false) = true := by decide +kernel

/-- C127: in a sharded directory whose shards are of different widths, removing one name can take away another one, which could be found before: the link that is left moves up, keeps the two index
digits of its old shard, and in the shard above only one of them is cut off; `a` is now called `8a`. -/
theorem C127_other_renamed : ∃ d c1, newDirectoryFromNode exMixed = .ok d ∧ (Dir.find (calmEnv H0) (start d 0) [0x61]).1 = .ok (exNd 1) ∧
    Dir.removeChild (calmEnv H0) (start d 0) [0x62] = (.ok (), c1) ∧ (Dir.find (calmEnv H0) c1 [0x61]).1 = .error .notExist ∧ (linksAndError (calmEnv H0) c1).1.map Link.name = [[0x38, 0x61]] := by
  have h := exMixed_runs
  split at h
  · next d hd =>
    split at h
    · next c1 ha =>
      have h := of_decide_eq_true h
      simp only [Prod.mk.injEq] at h
      obtain ⟨h1, h2, h3⟩ := h
      refine ⟨d, c1, hd, ?_, ha, ?_, h3⟩
      · generalize (Dir.find (calmEnv H0) (start d 0) [0x61]).1 = r at h1
        cases r with
        | error e => cases h1
        | ok x => cases h1; rfl
      · split at h2
        · next he => exact he
        · cases h2
    · cases h
  · cases h

/-- The hypotheses of `C127_removed_was_there` are met by that directory. -/
example : ∃ d c1, newDirectoryFromNode exTwice = .ok d ∧ Dir.removeChild (calmEnv H0) (start d 0) [0x61] = (.ok (), c1) ∧
    ((∃ nd, (Dir.find (calmEnv H0) (start d 0) [0x61]).1 = .ok nd) ∨ (Dir.find (calmEnv H0) (start d 0) [0x61]).1 = .error .notFound) := by
  obtain ⟨d, c1, hd, h, _⟩ := C127_found_again
  exact ⟨d, c1, hd, h, C127_removed_was_there rfl h⟩

/-- Those of `C127_missing_is_told` by the directory of `C124_misplaced`: a name that is listed, not found, and cannot be removed. -/
example : ∃ d, newDirectoryFromNode exMisplaced = .ok d ∧ (∃ l ∈ (linksAndError (calmEnv H0) (start d 0)).1, l.name = [0x62]) ∧ (Dir.removeChild (calmEnv H0) (start d 0) [0x62]).1 = .error .notExist := by
  obtain ⟨d, hd, _, hl, hf⟩ := C124_misplaced
  exact ⟨d, hd, hl, C127_missing_is_told rfl hf⟩

/-- A plain directory with a name twice. -/
def exPlain : Basic := { data := mustMarshal { typ := some TDirectory }, builder := .v0, links := [.mk [0x61] 1 (exNd 1), .mk [0x62] 1 (exNd 2), .mk [0x61] 1 (exNd 3)], estimatedSize := 0 }

/-- Those of `C127_removed_is_gone_partial` by a directory that has the name twice. -/
example : ∃ c1, Dir.removeChild (calmEnv H0) (start (.basic exPlain) 0) [0x61] = (.ok (), c1) ∧ (Dir.find lateEnv (execAll lateEnv [.find [0x62]] c1) [0x61]).1 = .error .notExist := by
  have l1 : ∀ op ∈ ([.find [0x62]] : List DOp), Looks op := by
    intro op hop; simp only [List.mem_cons, List.not_mem_nil, or_false] at hop; subst hop; trivial
  have h : (Dir.removeChild (calmEnv H0) (start (.basic exPlain) 0) [0x61]).1 = .ok () := rfl
  exact ⟨(Dir.removeChild (calmEnv H0) (start (.basic exPlain) 0) [0x61]).2, Prod.ext h rfl, C127_removed_is_gone_partial (env := calmEnv H0) (name := [0x61]) rfl l1 (Prod.ext h rfl) rfl⟩

/-- Those of `C127_others_stay_partial` by the same directory. -/
example : ∃ c1, Dir.removeChild (calmEnv H0) (start (.basic exPlain) 0) [0x61] = (.ok (), c1) ∧
    ((Dir.find lateEnv c1 [0x62]).1 = .ok (exNd 2) ∨ (Dir.find lateEnv c1 [0x62]).1 = .error .notFound) := by
  have h : (Dir.removeChild (calmEnv H0) (start (.basic exPlain) 0) [0x61]).1 = .ok () := rfl
  exact ⟨(Dir.removeChild (calmEnv H0) (start (.basic exPlain) 0) [0x61]).2, Prod.ext h rfl,
    (C127_others_stay_partial (env := calmEnv H0) (name := [0x61]) (k := [0x62]) (ops := []) rfl (by decide) (fun _ h => by cases h) (Prod.ext h rfl) rfl).1 (exNd 2) rfl⟩

end Examples

end Unixfs.Props

import Verif.Model.SFile
import Verif.Lemmas.FS
/-!
# The one-file view of SecureSaveFile agrees with the system-call model

`Verif.Model.SFile` sees only the three names of one target; `Verif.Model.FS` has the file system and the single system calls.
-/
namespace Goir
open GoMap SaveCall

/-- what a later reader finds under a name: `dec` stands for DecompressData, `none` when it panics. -/
def viewName (dec : Bytes → Option FB.Buf) (fs : FS) (p : Path) : Option Content :=
  (fs.readFile p).map fun c => match dec c with | some b => .full b | none => .torn

/-- the three names of a SecureSaveFile target. -/
def viewFile (dec : Bytes → Option FB.Buf) (fs : FS) (c : SaveCall) : SFile :=
  { cur := viewName dec fs (c.path ++ [c.name])
    old := viewName dec fs (c.path ++ [c.name ++ "_old"])
    tmp := viewName dec fs (c.path ++ [c.name ++ "_temp"]) }

/-- the position in the one-file view; the byte-wise write is one step. -/
def viewPc : SavePc → SPc
  | .start => .start
  | .writing _ => .writing
  | .written => .written
  | .moved => .moved
  | .installed => .installed
  | .done => .done
  | .failed => .done

/-- the file after the first `k` steps of SecureSaveFile in the one-file view. -/
def sfileAt (new : FB.Buf) (f : SFile) : SPc → SFile
  | .start => f
  | .writing => f.step new .start
  | .written => (f.step new .start).step new .writing
  | .moved => ((f.step new .start).step new .writing).step new .written
  | .installed => (((f.step new .start).step new .writing).step new .written).step new .moved
  | .done => ((((f.step new .start).step new .writing).step new .written).step new .moved).step new .installed

/-- After any number of system calls of `SecureSaveFile(path, name, buf)` the three names look to a reader as the one-file view
says, if `buf` decompresses to `b` and no proper prefix of it decompresses. Except: the last byte may be on disk while the view
still calls the temporary file incomplete. -/
theorem sfile_view (dec : Bytes → Option FB.Buf) (c : SaveCall) (fs : FS) (hr : c.Ready fs) (b : FB.Buf) (hb : dec c.buf = some b)
    (hp : ∀ n < c.buf.length, dec (c.buf.take n) = none) (n : Nat) :
    let s := c.after n (fs, .start)
    s.2 ≠ .failed ∧ (viewFile dec s.1 c = sfileAt b (viewFile dec fs c) (viewPc s.2) ∨
      (s.2 = .writing c.buf.length ∧ viewFile dec s.1 c = sfileAt b (viewFile dec fs c) .written)) := by
  intro s
  have ha : At c fs s := after_at hr n _ (show At c fs (fs, .start) from rfl)
  have hn := hr.plain
  have e1 := cur_ne_tmp hn
  have e2 := cur_ne_old hn
  have e3 := tmp_ne_old hn
  have r1 := hr.ncur
  have r2 := hr.nold
  unfold viewFile
  rw [← cur_eq hn, ← old_eq hn, ← tmp_eq hn]
  rw [← cur_eq hn] at r1
  rw [← old_eq hn] at r2
  have hcur : fs.get? c.cur = none ∨ ∃ x, fs.get? c.cur = some (.file x) := by
    cases hc : fs.get? c.cur with
    | none => exact .inl rfl
    | some nd => cases nd with
      | dir => exact absurd hc r1
      | file x => exact .inr ⟨x, rfl⟩
  obtain ⟨fs', pc⟩ := s
  cases pc with
  | start => simp only [At] at ha; subst ha; exact ⟨by simp, .inl rfl⟩
  | writing k =>
    obtain ⟨hk, ha⟩ := ha
    refine ⟨by simp, ?_⟩
    by_cases hlt : k < c.buf.length
    · left
      simp [viewName, FS.readFile, ha, e1, e3.symm, hp k hlt, sfileAt, viewPc, SFile.step]
    · right
      have : k = c.buf.length := by omega
      subst this
      refine ⟨rfl, ?_⟩
      simp [viewName, FS.readFile, ha, e1, e3.symm, hb, sfileAt, SFile.step]
  | written =>
    refine ⟨by simp, .inl ?_⟩
    simp only [At] at ha
    simp [viewName, FS.readFile, ha, e1, e3.symm, hb, sfileAt, viewPc, SFile.step]
  | moved =>
    refine ⟨by simp, .inl ?_⟩
    simp only [At] at ha
    simp only [viewName, FS.readFile, ha, e1, e3.symm, e2.symm, hb, sfileAt, viewPc, SFile.step, movedOld, if_true, if_false]
    rcases hcur with hc | ⟨x, hc⟩ <;> simp [hc, hb]
  | installed =>
    refine ⟨by simp, .inl ?_⟩
    simp only [At] at ha
    simp only [viewName, FS.readFile, ha, e1, e3.symm, e2.symm, hb, sfileAt, viewPc, SFile.step, movedOld, if_true, if_false]
    rcases hcur with hc | ⟨x, hc⟩ <;> simp [hc, hb]
  | done =>
    refine ⟨by simp, .inl ?_⟩
    simp only [At] at ha
    simp only [viewName, FS.readFile, ha, e1, e3.symm, e2.symm, hb, sfileAt, viewPc, SFile.step, if_true, if_false]
    rcases hcur with hc | ⟨x, hc⟩ <;> simp [hc, hb]
  | failed => exact ha.elim

end Goir

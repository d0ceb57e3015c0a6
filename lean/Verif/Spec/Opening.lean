import Verif.Model.Resolver
/-!
What the default resolver answers, in terms of what the file system says: the paths tried and the meaning of each
answer.  Written as a relation, independent of the resolver chain.
-/
namespace Verif

/-- The operating system says that there is nothing at the path. -/
inductive SaysNotFound (fs : Bytes → FsEntry) (path : Bytes) : Prop where
  | atOpen : fs path = .err .notFound → SaysNotFound fs path
  | atRead {k} : k ≤ 2147483647 → fs path = .file k (.error .notFound) → SaysNotFound fs path

/-- What a file at a path is taken for, if there is something at the path. -/
inductive FoundAt (parse : ParseFn) (fs : Bytes → FsEntry) (name path : Bytes) : Except Error File → Prop where
  /-- The operating system refuses to open it or to read it. -/
  | refused {c} : fs path = .err (.other c) → FoundAt parse fs name path (.error (.openFile name path (.other c)))
  | unreadable {k c} : k ≤ 2147483647 → fs path = .file k (.error (.other c)) →
      FoundAt parse fs name path (.error (.openFile name path (.other c)))
  /-- The operating system says that the data is invalid. -/
  | invalid : fs path = .err .invalidData → FoundAt parse fs name path (.error (.fileInvalidUtf8 name))
  | invalidRead {k} : k ≤ 2147483647 → fs path = .file k (.error .invalidData) →
      FoundAt parse fs name path (.error (.fileInvalidUtf8 name))
  /-- It is too large. -/
  | large {k c} : 2147483647 < k → fs path = .file k c → FoundAt parse fs name path (.error (.fileTooLarge name))
  /-- It is not text. -/
  | notText {k bytes} : k ≤ 2147483647 → fs path = .file k (.ok bytes) → utf8Valid (bytes.take 2147483647) = false →
      FoundAt parse fs name path (.error (.fileInvalidUtf8 name))
  /-- It is text but not a protobuf file. -/
  | notProto {k bytes e} : k ≤ 2147483647 → fs path = .file k (.ok bytes) → utf8Valid (bytes.take 2147483647) = true →
      parse name (bytes.take 2147483647) = .error e → FoundAt parse fs name path (.error (.parse e))
  /-- It is a protobuf file. -/
  | proto {k bytes d} : k ≤ 2147483647 → fs path = .file k (.ok bytes) → utf8Valid (bytes.take 2147483647) = true →
      parse name (bytes.take 2147483647) = .ok d →
      FoundAt parse fs name path (.ok ⟨some path, some (bytes.take 2147483647), d, none⟩)

/-- The answer to a name: that of the first include directory in which there is something at the name; or else the
bundled file; or else "not found". -/
inductive Opens (parse : ParseFn) (fs : Bytes → FsEntry) (text : Bytes → Bytes) (includes : List Bytes) (name : Bytes) :
    Except Error File → Prop where
  | included {pre incl post r} : includes = pre ++ incl :: post →
      (∀ i ∈ pre, SaysNotFound fs (Path.includeTarget i name)) →
      FoundAt parse fs name (Path.includeTarget incl name) r → Opens parse fs text includes name r
  | bundled {d} : (∀ i ∈ includes, SaysNotFound fs (Path.includeTarget i name)) → name ∈ googleNames →
      parse name (text name) = .ok d → Opens parse fs text includes name (.ok ⟨none, some (text name), d, none⟩)
  | bundledBad {e} : (∀ i ∈ includes, SaysNotFound fs (Path.includeTarget i name)) → name ∈ googleNames →
      parse name (text name) = .error e → Opens parse fs text includes name (.error (.parse e))
  | nowhere : (∀ i ∈ includes, SaysNotFound fs (Path.includeTarget i name)) → name ∉ googleNames →
      Opens parse fs text includes name (.error (.fileNotFound name))

end Verif

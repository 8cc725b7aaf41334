/-!
# Basic vocabulary of the model

Go values and how they are represented:

* `[]byte` and Go `string` (an arbitrary byte sequence) are `Bytes`;
* Go `error` values are constructors of `Err`; the text of an error is not modelled, only which
  error it is;
* a Go function `f(...) (T, error)` is a function into `Except Err T`.
-/

namespace Unixfs

/-- Go `[]byte` / `string`.
Stands for all the byte slices and strings in /repo; nil and empty are kept apart with `Option` where the code does. -/
abbrev Bytes := List UInt8

/-- The error values of the modelled code. Each constructor cites where the error is created. -/
inductive Err where
  /-- gogo/protobuf `io.ErrUnexpectedEOF` while decoding. -/
  | pbUnexpectedEOF
  /-- gogo/protobuf: "proto: illegal tag 0". -/
  | pbIllegalTag
  /-- gogo/protobuf: "proto: can't skip unknown wire type". -/
  | pbBadWireType
  /-- gogo/protobuf `RequiredNotSetError` ("required field Type not set"). -/
  | pbRequiredNotSet
  /-- unixfs.go:187 "can't get data size of directory". -/
  | dirDataSize
  /-- unixfs.go:193 "unrecognized node data type". -/
  | unrecognizedDataType
  /-- unixfs.go:358 "incorrect node type". -/
  | incorrectNodeType
  /-- unixfs.go:422 "incorrectly formatted protobuf". -/
  | incorrectlyFormatted
  /-- unixfs.go:433 "found %s node in unexpected place". -/
  | unexpectedPlace
  /-- unixfs.go:47 / io: `ErrUnrecognizedType`, `ErrUnkownNodeType`. -/
  | unrecognizedType
  /-- unixfs.go:455 "expected a ProtoNode as internal node", `mdag.ErrNotProtobuf`. -/
  | notProtobuf
  /-- A block could not be fetched from the DAG service (`ipld.ErrNotFound` or a transport error). -/
  | notFound
  /-- The DAG service refused to store a block. -/
  | addFailed
  /-- An error returned by the splitter / underlying `io.Reader`. -/
  | splitter
  /-- importer/helpers/helpers.go: `ErrSizeLimitExceeded`. -/
  | sizeLimitExceeded
  /-- importer/helpers/dagbuilder.go: `ErrMissingFsRef`. -/
  | missingFsRef
  /-- `context.Canceled`. -/
  | cancelled
  /-- io.EOF -/
  | eof
  /-- io/dagreader.go: `ErrIsDir`. -/
  | isDir
  /-- io/dagreader.go: `ErrCantReadSymlinks`. -/
  | cantReadSymlinks
  /-- io/dagreader.go: "Invalid offset" / "bad whence". -/
  | invalidOffset
  | badWhence
  /-- io/dagreader.go:30 `ErrSeekNotSupported`. -/
  | seekNotSupported
  /-- The error of an `io.Writer` passed to `WriteTo`. -/
  | writeFailed
  /-- trickledag.go: the errors of `verifyTDagRec`. -/
  | badTrickle (why : String)
  /-- `os.ErrNotExist` / `mdag.ErrLinkNotFound`. -/
  | notExist
  /-- hamt/util.go:36 "sharded directory too deep". -/
  | tooDeep
  /-- hamt/util.go:68,72 "hamt size should be a power of two". -/
  | hamtSize
  /-- hamt.go: other errors, identified by their text. -/
  | hamt (why : String)
  /-- mod/dagmodifier.go errors, identified by their text. -/
  | mod (why : String)
  /-- io/directory.go, file/unixfile.go errors, identified by their text. -/
  | dir (why : String)
  /-- A Go run-time panic (index out of range, nil dereference). -/
  | panic
  /-- Not a Go error: the model of an unbounded loop ran out of fuel, i.e. the Go code had not
  returned after that many iterations. -/
  | outOfFuel
deriving DecidableEq, Repr

end Unixfs

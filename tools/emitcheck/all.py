# Run: python3 all.py. Prints for every file how many methods agree.
import sys,os; HERE=os.path.dirname(os.path.abspath(__file__)); sys.path.insert(0,HERE)
from cmp import run
W=set('anypb.Any,durationpb.Duration,emptypb.Empty,fieldmaskpb.FieldMask,timestamppb.Timestamp,structpb.Struct,structpb.Value,structpb.ListValue'.split(','))|{'wrapperspb.%sValue'%w for w in 'Double Float Int64 UInt64 Int32 UInt32 Bool String Bytes'.split()}
main=sys.argv[1] if len(sys.argv)>1 else 'print.lean.in'; pat=sys.argv[2] if len(sys.argv)>2 else r'SizeVT|Marshal'
run('/repo/types/known/structpb/struct_vtproto.pb.go',wkt={'Struct','Value','ListValue'},iu={'Struct','Value','ListValue'},pb=[HERE+'/fake/struct.pb.go.in'],pat=pat,main=main)
for f in 'testproto/grpc/grpc testproto/grpc/inner/inner testproto/unsafe/unsafe testproto/pool/pool_with_slice_reuse testproto/pool/pool testproto/pool/pool_with_oneof testproto/wkt/wkt testproto/unique/unique testproto/proto3opt/opt testproto/proto2/scalars conformance/internal/conformance/test_messages_proto3 conformance/internal/conformance/test_messages_proto2 conformance/internal/conformance/conformance'.split():
    run('/repo/%s_vtproto.pb.go'%f,wkt=W,pat=pat,main=main,unique='unique' in f,ext={'TestAllTypesProto2':[(120,201)],'TestAllTypesProto2_MessageSetCorrect':[(4,2147483647)],'TestAllRequiredTypesProto2':[(120,201)],'TestAllRequiredTypesProto2_MessageSetCorrect':[(4,2147483647)]})
run('/repo/testproto/ignore_unknown_fields/opt_vtproto.pb.go',wkt=W,iu={'IgnoreUnknownFieldsExtension'},pat=pat,main=main)

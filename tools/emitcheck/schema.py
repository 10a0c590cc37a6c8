# parse the structs of the .pb.go files of one package into a Lean schema literal plus names
import re,sys,glob,os
def parse(files):
    structs={}; order=[]
    for fn in files:
        src=open(fn).read()
        for m in re.finditer(r'^type (\w+) struct \{\n(.*?)^\}',src,re.M|re.S):
            name,body=m.groups()
            fs=[]
            for line in body.split('\n'):
                mm=re.match(r'\s*(\w+)\s+(\S+)\s+`(.*)`',line)
                if mm: fs.append(mm.groups())
            isenum=False
            structs[name]=(fs,'protoimpl.MessageState' in body,fn); order.append(name)
    # wrapper structs implement isX_Y
    impl={}
    for fn in files:
        for m in re.finditer(r'^func \(\*(\w+)\) (is\w+)\(\)',open(fn).read(),re.M):
            impl.setdefault(m.group(2),[]).append(m.group(1))
    return structs,order,impl
def kind(wire,gt,opts):
    base=gt.lstrip('*')
    if base=='[]byte': return 'bytes'
    if wire=='varint':
        if any(o.startswith('enum=') for o in opts): return 'enum'
        return base
    if wire=='zigzag32': return 'sint32'
    if wire=='zigzag64': return 'sint64'
    if wire=='fixed32': return {'uint32':'fixed32','int32':'sfixed32','float32':'float'}[base]
    if wire=='fixed64': return {'uint64':'fixed64','int64':'sfixed64','float64':'double'}[base]
    if wire=='bytes': return 'string' if base=='string' else 'message'
    if wire=='group': return 'group'
    raise Exception((wire,gt))
class Sch:
    def __init__(s,files,wkt=set(),ignoreUnknown=set(),pool=set(),unique=False,ext={}):
        s.structs,s.order,s.impl=parse(files)
        s.msgs=[n for n in s.order if s.structs[n][1]]
        s.types=list(s.msgs); s.ext=ext; s.unique=unique; s.enums=set(); s.gts={}
        s.iu=ignoreUnknown; s.pool=pool; s.wkt=wkt
        s.slots={}; s.members={}; s.wrapT={}; s.fields={}; s.oneofs={}
        for n in s.msgs: s.doMsg(n)
    def ti(s,gt):
        b=gt.lstrip('*[]').lstrip('*')
        if b not in s.types: s.types.append(b)
        return s.types.index(b)
    def one(s,gt,tag,oneof=False):
        pm=re.search(r'protobuf:"([^"]*)"',tag).group(1).split(',')
        wire,num,card=pm[0],int(pm[1]),pm[2]; opts=pm[3:]
        p3='proto3' in opts
        syn=p3 and 'oneof' in opts and not oneof
        packed='packed' in opts
        km=re.search(r'protobuf_key:"([^"]*)"',tag)
        mp=None
        if km:
            vm=re.search(r'protobuf_val:"([^"]*)"',tag).group(1).split(',')
            k=km.group(1).split(',')
            mm=re.match(r'map\[(\w+)\](.*)',gt)
            kk=kind(k[0],mm.group(1),k); vv=kind(vm[0],mm.group(2),vm)
            mp=(kk,vv,s.ti(mm.group(2)) if vv=='message' else 0)
            if vv=='enum': s.enums.add(mm.group(2))
            return dict(num=num,kind='message',card='repeated',presence=False,packed=False,oneof=False,syn=False,msg=0,map=mp,p3=p3)
        egt=gt[2:] if card=='rep' else gt
        kd=kind(wire,egt,opts)
        if kd=='enum': s.enums.add(egt.lstrip('*'))
        c={'opt':'optional','req':'required','rep':'repeated'}[card]
        pres = c!='repeated' and (kd in('message','group') or (not p3) or syn or oneof)
        return dict(num=num,kind=kd,card=c,presence=pres,packed=packed,oneof=oneof,syn=syn,msg=s.ti(egt) if kd in('message','group') else 0,map=None,p3=p3,gt=gt)
    def doMsg(s,n):
        fs=s.structs[n][0]; out=[]; slot=0; names=[]; s.gts[n]=[]
        for (gn,gt,tag) in fs:
            if 'protobuf_oneof' in tag:
                for w in s.impl.get(gt,[]):
                    (wgn,wgt,wtag)=s.structs[w][0][0]
                    f=s.one(wgt,wtag,True); f['slot']=slot; f['go']=wgn; f['wt']=w; out.append(f)
                    s.members[(n,f['num'])]=wgn; s.wrapT[(n,f['num'])]=w
                names.append(gn); s.gts[n].append(gt); s.oneofs[(n,slot)]=gt; slot+=1
            elif 'protobuf:' in tag:
                f=s.one(gt,tag); f['slot']=slot; f['go']=gn; out.append(f); names.append(gn); s.gts[n].append(gt); slot+=1
        s.fields[n]=out; s.slots[n]=names
    def lean(s):
        b=lambda x:'true' if x else 'false'
        L=[]
        for n in s.types:
            if n in s.fields:
                fl=[]
                for f in s.fields[n]:
                    mp='none' if not f['map'] else 'some ⟨.%s, .%s, %d⟩'%f['map']
                    fl.append('⟨%d, %d, .%s, .%s, %s, %s, %s, %s, %d, %s⟩'%(f['num'],f['slot'],f['kind'],f['card'],b(f['presence']),b(f['packed']),b(f['oneof']),b(f['syn']),f['msg'],mp))
                p3=all(f['p3'] for f in s.fields[n])
                L.append('{ fields := [%s], nslots := %d, proto3 := %s, keepUnknown := %s, pooled := %s, extRanges := [%s] }'%(', '.join(fl),len(s.slots[n]),b(p3),b(n not in s.iu),b(n in s.pool),', '.join('(%d, %d)'%r for r in s.ext.get(n,[]))))
            else:
                L.append('{ fields := [], nslots := 0, foreign := true }')
        q=lambda x:'"%s"'%x
        o='def sch : Schema := [\n  '+',\n  '.join(L)+']\n'
        o+='def tnames : List String := ['+', '.join(map(q,s.types))+']\n'
        o+='def snames : List (List String) := ['+', '.join('['+', '.join(map(q,s.slots.get(n,[])))+']' for n in s.types)+']\n'
        o+='def stypes : List (List String) := ['+', '.join('['+', '.join(map(q,s.gts.get(n,[])))+']' for n in s.types)+']\n'
        o+='def uniq : Bool := %s\n'%b(s.unique)
        o+='def mnames : List (Nat × Nat × String × String) := ['+', '.join('(%d, %d, %s, %s)'%(s.types.index(k[0]),k[1],q(v),q(s.wrapT[k])) for k,v in s.members.items())+']\n'
        o+='def onames : List (Nat × Nat × String) := ['+', '.join('(%d, %d, %s)'%(s.types.index(k[0]),k[1],q(v)) for k,v in s.oneofs.items())+']\n'
        o+='def nlocal : Nat := %d\n'%len(s.msgs)
        o+='def wkts : List Nat := [%s]\n'%', '.join(str(i) for i,n in enumerate(s.types) if n in s.wkt)
        return o
